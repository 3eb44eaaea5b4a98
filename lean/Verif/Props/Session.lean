import Verif.Props.Open
import Verif.Props.RefineBoxes
import Verif.Props.CallsNd
/-!
# Opening, using and reopening a hierarchy: C82
-/

namespace Zarr

open Spec

/-! ## The specification -/

/-- The locations that belong to nodes: those below `meta` and `data` in the base directory. -/
def Spec.NodeArea (h : Hier) (l : Loc) : Prop :=
  segs h.base ++ [str!"meta"] <+: l ∨ segs h.base ++ [str!"data"] <+: l

/-- What a program does with a hierarchy: open it again, with `open` or `open_or_create`, or make one of the
calls of C81. -/
inductive Spec.SCall where
  | open
  | openOrCreate
  | call (c : BCall)

/-- What it sees. -/
inductive Spec.SResult where
  | handle (r : Outcome Hier)
  | result (r : BResult)

/-- The results of a program that holds the handle `h`; it goes on with the handle it opened last, and
stops when it cannot open the hierarchy. -/
def Spec.sResults (env : Env) (md : List Str → ArrayMetadata) : List SCall → Hier → Fs → List SResult
  | [], _, _ => []
  | .open :: cs, h, fs =>
    let r := Zarr.openHier env h.base fs
    .handle r.1 :: (match r.1 with
      | .ok h' => sResults env md cs h' r.2
      | _ => [])
  | .openOrCreate :: cs, h, fs =>
    let r := Zarr.openOrCreate env h.base fs
    .handle r.1 :: (match r.1 with
      | .ok h' => sResults env md cs h' r.2
      | _ => [])
  | .call c :: cs, h, fs =>
    .result (c.run env h md fs).1 :: sResults env md cs h (c.run env h md fs).2

/-- The results on an abstract hierarchy: opening always gives the same handle and changes nothing. -/
def Spec.sAbsResults (h : Hier) (md : List Str → ArrayMetadata) (fill : List Str → (t : RsType) → El t) :
    List SCall → AbsHier → List SResult
  | [], _ => []
  | .open :: cs, a => .handle (.ok h) :: sAbsResults h md fill cs a
  | .openOrCreate :: cs, a => .handle (.ok h) :: sAbsResults h md fill cs a
  | .call c :: cs, a => .result (c.abs md fill a).1 :: sAbsResults h md fill cs (c.abs md fill a).2

/-- The calls of which the specification speaks. -/
def Spec.SCall.Ok (env : Env) (h : Hier) (md : List Str → ArrayMetadata)
    (fill : List Str → (t : RsType) → El t) : SCall → Prop
  | .call c => c.Ok env h md fill
  | _ => True

/-! ## The calls change nothing but node documents and chunks -/

/-- A call that leaves a tree and changes no file outside the area of the nodes. -/
def Restricted {α : Type} (h : Hier) (x : M Fs α) : Prop :=
  ∀ fs, fs.WF → (x fs).2.WF ∧ ∀ l, ¬ NodeArea h l → (x fs).2.content l = fs.content l

section
variable {env : Env} {h : Hier} {α β : Type}

theorem Restricted.ro {x : M Fs α} (hx : M.ReadOnly x) : Restricted h x := by
  intro fs hwf
  rw [hx fs]
  exact ⟨hwf, fun _ _ => rfl⟩

theorem Restricted.bind {x : M Fs α} {f : α → M Fs β} (hx : Restricted h x) (hf : ∀ a, Restricted h (f a)) :
    Restricted h (x >>= f) := by
  intro fs hwf
  obtain ⟨h1, h2⟩ := hx fs hwf
  rw [M.bind_apply]
  cases e : x fs with
  | mk r fs1 =>
    rw [e] at h1 h2
    cases r with
    | ok a =>
      obtain ⟨h3, h4⟩ := hf a fs1 h1
      exact ⟨h3, fun l hl => (h4 l hl).trans (h2 l hl)⟩
    | err e => exact ⟨h1, h2⟩
    | panic => exact ⟨h1, h2⟩

theorem nodeArea_docLoc (h : Hier) (kind p : Str) : NodeArea h (docLoc h kind p) := by
  obtain ⟨i, a, e1, e2⟩ := docLoc_split h kind p
  cases i with
  | nil => simp at e1
  | cons x xs =>
    simp only [List.cons_append, List.cons.injEq] at e1
    left
    rw [e2, ← e1.1]
    simp

theorem nodeArea_dataLoc {h : Hier} {p : Str} {l : Loc} (hl : dataLoc h p <+: l) : NodeArea h l := by
  right
  refine List.IsPrefix.trans ?_ hl
  simp [dataLoc]

theorem nodeArea_chunk (h : Hier) (p : Str) (m : ArrayMetadata) (pos : List Nat) :
    NodeArea h (h.loc (chunkKey p m pos)) := by
  right
  rw [Hier.loc, segs_chunkKey]
  simp

/-- The files that a call may change belong to nodes. -/
theorem NodeOp.Touches.area {op : NodeOp} {l : Loc} (ht : op.Touches h l) : NodeArea h l := by
  cases op with
  | createGroup p => rw [show l = _ from ht]; exact nodeArea_docLoc _ _ _
  | createArray p m => rw [show l = _ from ht]; exact nodeArea_docLoc _ _ _
  | setAttributes p b =>
    rcases ht with rfl | rfl <;> exact nodeArea_docLoc _ _ _
  | remove p =>
    rcases ht with rfl | rfl | ht
    · exact nodeArea_docLoc _ _ _
    · exact nodeArea_docLoc _ _ _
    · exact nodeArea_dataLoc ht
  | writeChunk p m t c => rw [show l = _ from ht]; exact nodeArea_chunk _ _ _ _
  | deleteChunk p m pos => rw [show l = _ from ht]; exact nodeArea_chunk _ _ _ _

theorem NodeOp.restricted (hb : Plain (segs h.base)) (hs : GoodSuffix h.entry) {op : NodeOp} (hp : op.NoDotDot)
    {fs : Fs} (hwf : fs.WF) :
    (op.run env h fs).WF ∧ ∀ l, ¬ NodeArea h l → (op.run env h fs).content l = fs.content l := by
  obtain ⟨h1, h2⟩ := NodeOp.run_frame (env := env) hwf hb hs hp
  exact ⟨h1, fun l hl => h2 l fun ht => hl ht.area⟩

variable {p : Str} {m : ArrayMetadata} {t : RsType}

theorem writeChunk_restricted (hb : Plain (segs h.base)) (hs : GoodSuffix h.entry) (hp : Plain (segs p))
    (hsep : GoodSep m.separator) (c : DataChunk t) : Restricted h (writeChunk env h p m c) := fun _ hwf =>
  NodeOp.restricted (op := .writeChunk p m t c) hb hs ⟨hp, plain_segs_chunkKey hp hsep _⟩ hwf

theorem writeCoord_restricted (hb : Plain (segs h.base)) (hs : GoodSuffix h.entry) (hp : Plain (segs p))
    (hsep : GoodSep m.separator) {bbox : BBox} {fill : El t} {array : NdArr (El t)} {pos : List Nat}
    {existing : List (El t)} : Restricted h (writeCoord env h p m bbox fill array pos existing) := by
  refine (Restricted.ro (.lift _)).bind fun w => (Restricted.ro (.lift _)).bind fun b =>
    (Restricted.ro (.lift _)).bind fun v => ?_
  have hw : ∀ c : DataChunk t, Restricted h (writeChunk env h p m c) := writeChunk_restricted hb hs hp hsep
  by_cases e : w = m.chunkBounds pos
  · rw [if_pos e]
    exact (hw _).bind fun _ => .ro (.pure _)
  · rw [if_neg e]
    exact (Restricted.ro (readChunkInto_ro _ _ _ _ _ _ _)).bind fun _ => (Restricted.ro (.lift _)).bind fun _ =>
      (Restricted.ro (.lift _)).bind fun _ => (Restricted.ro (.lift _)).bind fun _ => (hw _).bind fun _ => .ro (.pure _)

theorem writeLoop_restricted (hb : Plain (segs h.base)) (hs : GoodSuffix h.entry) (hp : Plain (segs p))
    (hsep : GoodSep m.separator) {bbox : BBox} {fill : El t} {array : NdArr (El t)} (coords : List (List Nat))
    (existing : List (El t)) : Restricted h (writeLoop env h p m bbox fill array coords existing) := by
  induction coords generalizing existing with
  | nil => exact .ro (.pure _)
  | cons pos rest ih => exact (writeCoord_restricted hb hs hp hsep).bind fun e => ih e

theorem writeNdarray_restricted (hb : Plain (segs h.base)) (hs : GoodSuffix h.entry) (hp : Plain (segs p))
    (hsep : GoodSep m.separator) (offset : List Nat) (array : NdArr (El t)) :
    Restricted h (writeNdarray env h p m offset array) := by
  unfold writeNdarray
  split
  · exact .ro (.lift _)
  · exact (Restricted.ro (.lift _)).bind fun _ => (Restricted.ro (.lift _)).bind fun _ =>
      writeLoop_restricted hb hs hp hsep _ _

/-- The path argument of a call. -/
def Spec.HCall.path : HCall → Str
  | .createGroup p | .createArray p _ | .setAttributes p _ | .remove p | .writeChunk p _ _ | .deleteChunk p _
  | .nodeExists p | .arrayExists p | .getArrayMetadata p | .listAttributes p | .readChunk p _ _ => p

/-- The path argument of a call. -/
def Spec.BCall.path : BCall → Str
  | .call c => c.path
  | .readBox p _ _ | .writeBox p _ _ _ => p

variable {md : List Str → ArrayMetadata}

theorem hCall_restricted (hb : Plain (segs h.base)) (hs : GoodSuffix h.entry)
    (hsep : ∀ q, GoodSep (md q).separator) (c : HCall) (hp : Plain (segs c.path)) {fs : Fs} (hwf : fs.WF) :
    (c.run env h md fs).2.WF ∧ ∀ l, ¬ NodeArea h l → (c.run env h md fs).2.content l = fs.content l := by
  have hro : ∀ {fs' : Fs}, fs' = fs → fs'.WF ∧ ∀ l, ¬ NodeArea h l → fs'.content l = fs.content l := by
    rintro _ rfl; exact ⟨hwf, fun _ _ => rfl⟩
  have this : ∀ {op : NodeOp}, op.NoDotDot →
      (op.run env h fs).WF ∧ ∀ l, ¬ NodeArea h l → (op.run env h fs).content l = fs.content l :=
    fun hp => NodeOp.restricted hb hs hp hwf
  cases c with
  | createGroup p => simpa only [HCall.run, NodeOp.run] using this (op := .createGroup p) hp
  | createArray p m => simpa only [HCall.run, NodeOp.run] using this (op := .createArray p m) hp
  | setAttributes p b => simpa only [HCall.run, NodeOp.run] using this (op := .setAttributes p b) hp
  | remove p => simpa only [HCall.run, NodeOp.run] using this (op := .remove p) hp
  | writeChunk p t c =>
    simpa only [HCall.run, NodeOp.run] using this (op := .writeChunk p (md (segs p)) t c) ⟨hp, plain_segs_chunkKey hp (hsep _) _⟩
  | deleteChunk p pos =>
    simpa only [HCall.run, NodeOp.run] using this (op := .deleteChunk p (md (segs p)) pos) ⟨hp, plain_segs_chunkKey hp (hsep _) _⟩
  | nodeExists p => simpa only [HCall.run] using hro (nodeExists_ro _ _ _)
  | arrayExists p => simpa only [HCall.run] using hro (arrayExists_ro _ _ _ _)
  | getArrayMetadata p => simpa only [HCall.run] using hro (getArrayMetadata_ro _ _ _ _)
  | listAttributes p => simpa only [HCall.run] using hro (listAttributes_ro _ _ _ _)
  | readChunk p t pos => simpa only [HCall.run] using hro (readChunk_ro _ _ _ _ _ _ _)

/-- Every call leaves a tree and changes no file but documents of nodes and chunks, whether it succeeds
or not. -/
theorem bCall_restricted (hb : Plain (segs h.base)) (hs : GoodSuffix h.entry)
    (hsep : ∀ q, GoodSep (md q).separator) (c : BCall) (hp : Plain (segs c.path)) {fs : Fs} (hwf : fs.WF) :
    (c.run env h md fs).2.WF ∧ ∀ l, ¬ NodeArea h l → (c.run env h md fs).2.content l = fs.content l := by
  cases c with
  | call c => exact hCall_restricted hb hs hsep c hp hwf
  | readBox p t b =>
    have : ((BCall.readBox p t b).run env h md fs).2 = fs := (C58_ndarray env h p (md (segs p)) t b fs).1
    rw [this]
    exact ⟨hwf, fun _ _ => rfl⟩
  | writeBox p t offset array => exact writeNdarray_restricted hb hs hp (hsep _) offset array fs hwf

theorem not_nodeArea_entry (h : Hier) : ¬ NodeArea h (segs h.base ++ [str!"zarr.json"]) := by
  rintro (e | e)
  all_goals
    have := (List.prefix_append_right_inj (segs h.base)).mp e
    revert this
    decide

theorem Spec.BCall.Ok.plain {c : BCall} {fill : List Str → (t : RsType) → El t} (hok : c.Ok env h md fill) :
    Plain (segs c.path) := by
  cases c with
  | call c =>
    cases c with
    | createGroup p => exact Spec.OrdinaryPath.plain hok
    | createArray p m => exact Spec.OrdinaryPath.plain hok.1
    | setAttributes p b => exact Spec.OrdinaryPath.plain hok.1
    | remove p => exact Spec.OrdinaryPath.plain hok
    | writeChunk p t c => exact Spec.OrdinaryPath.plain hok.1
    | deleteChunk p pos => exact Spec.OrdinaryPath.plain hok.1
    | nodeExists p => exact Spec.OrdinaryPath.plain hok
    | arrayExists p => exact Spec.OrdinaryPath.plain hok
    | getArrayMetadata p => exact Spec.OrdinaryPath.plain hok
    | listAttributes p => exact Spec.OrdinaryPath.plain hok
    | readChunk p t pos => exact Spec.OrdinaryPath.plain hok.1
  | readBox p t b => exact Spec.OrdinaryPath.plain hok.1
  | writeBox p t offset array => exact Spec.OrdinaryPath.plain hok.1

/-- The version requirement has no part in whether a call is one of which the specification speaks. -/
theorem Spec.BCall.Ok.version {c : BCall} {fill : List Str → (t : RsType) → El t} (v : Str → Option Bool)
    (hok : c.Ok env h md fill) : c.Ok { env with versionReq := v } h md fill := by
  have hbox : ∀ {m : ArrayMetadata} {t : RsType} {f : El t} {b : BBox}, BoxOk env m t f b →
      BoxOk { env with versionReq := v } m t f b := fun ok =>
    ⟨ok.type, ok.fill, ok.dims, ok.some, ok.pos, ok.small, ok.offset, ok.shape, ok.meets⟩
  cases c with
  | call c => cases c <;> exact hok
  | readBox p t b => exact ⟨hok.1, hbox hok.2⟩
  | writeBox p t offset array => exact ⟨hok.1, hbox hok.2.1, hok.2.2⟩

/-! ## Sessions -/

/-- What `open` gives depends on the entry point document only. -/
theorem openHier_of_content {base : Str} {fs fs' : Fs} (hwf : fs.WF) (hwf' : fs'.WF) (hb : Plain (segs base))
    (hc : fs'.content (segs base ++ [str!"zarr.json"]) = fs.content (segs base ++ [str!"zarr.json"]))
    (ho : (openHier env base fs).1 = .ok h) : openHier env base fs' = (.ok h, fs') := by
  rw [openHier_iff hwf hb, ← hc, ← openHier_iff hwf' hb] at ho
  exact Prod.ext ho (openHier_ro env base fs')

theorem openHier_base {base : Str} {fs : Fs} (hwf : fs.WF) (hb : Plain (segs base))
    (ho : (openHier env base fs).1 = .ok h) : h.base = base ∧ fs.get (segs base ++ [str!"zarr.json"]) ≠ none := by
  rw [openHier_iff hwf hb] at ho
  obtain ⟨b, j, hc, _, _, _, _, e⟩ := ho
  refine ⟨e, ?_⟩
  rw [Fs.content_eq_some.mp hc]
  simp

/-- Where the hierarchy can be opened, a program sees an abstract hierarchy that survives reopening. -/
theorem sResults_of_holds (hj : env.json.Lawful) (hb : Plain (segs h.base))
    (hsfx : GoodSuffix h.entry) (hdot : '.' ∉ stripDot h.entry.metadataKeySuffix)
    (hs : ∀ q, GoodSep (md q).separator) {a : AbsHier} {fs : Fs} (hh : Holds env h md a fs) (hwf : fs.WF)
    (ho : (openHier env h.base fs).1 = .ok h)
    {fill : List Str → (t : RsType) → El t} (calls : List SCall) (hok : ∀ c ∈ calls, c.Ok env h md fill) :
    sResults env md calls h fs = sAbsResults h md fill calls a := by
  induction calls generalizing a fs with
  | nil => rfl
  | cons c cs ih =>
    have hcs : ∀ c ∈ cs, c.Ok env h md fill := fun c hc => hok c (by simp [hc])
    have ho' : openHier env h.base fs = (.ok h, fs) := Prod.ext ho (openHier_ro env h.base fs)
    cases c with
    | «open» => simp only [sResults, sAbsResults, ho', ih hh hwf ho hcs]
    | openOrCreate =>
      have e := ((C44 hj hwf hb).2.2 (openHier_base hwf hb ho).2).1
      simp only [sResults, sAbsResults, e, ho', ih hh hwf ho hcs]
    | call c =>
      have hc : c.Ok env h md fill := hok (.call c) (by simp)
      obtain ⟨h1, h2⟩ := bStep hj hb hsfx hdot hs hh c hc
      obtain ⟨w1, w2⟩ := bCall_restricted (env := env) hb hsfx hs c hc.plain hwf
      have := openHier_of_content hwf w1 hb (w2 _ (not_nodeArea_entry h)) ho
      simp only [sResults, sAbsResults, h1]
      rw [ih h2 w1 (by rw [this]) hcs]

end

theorem freshDir_created {base : Str} {fs fs' : Fs} {v : Bytes} (hf : FreshDir ⟨base, EntryPointMetadata.default⟩ fs)
    (hget : ∀ l, fs'.get l = setSpec fs (segs base ++ [str!"zarr.json"]) v l) :
    FreshDir ⟨base, EntryPointMetadata.default⟩ fs' := by
  constructor
  · rintro l r rfl h1 h2
    have e1 : ¬ (segs base ++ r = segs base ++ [str!"zarr.json"]) := by simpa using h2
    have e2 : ¬ (segs base ++ r <+: segs base ++ [str!"zarr.json"]) := by
      rw [List.prefix_append_right_inj]
      intro hp
      rcases Fs.prefix_concat.mp (show r <+: [] ++ [str!"zarr.json"] from hp) with h | h
      · exact h1 (List.prefix_nil.mp h)
      · exact h2 h
    rw [hget]
    unfold setSpec
    rw [if_neg e1, if_neg fun hh => e2 hh.1]
    exact hf.1 _ r rfl h1 h2
  · intro l b hl
    have hne : l ≠ segs base ++ [str!"zarr.json"] := by
      rintro rfl
      have := hl.length_le
      simp at this
      omega
    rw [hget]
    unfold setSpec
    rw [if_neg hne]
    split
    · simp
    · exact hf.2 l b hl

/-- **C82.** (1) Every call of a history, whether it succeeds or not, leaves a tree and changes no file outside `meta`
and `data`, so never the entry point document. (2) Where a hierarchy can be opened that has nothing in it, a
program that makes any calls of C81 and opens the hierarchy again whenever it likes always gets the same handle and
otherwise sees the abstract hierarchy of C81: what was written before is there after reopening. (3) Where there is
nothing at all, `open_or_create` makes such a hierarchy. -/
theorem C82 (env : Env) (md : List Str → ArrayMetadata) (fill : List Str → (t : RsType) → El t)
    (hj : env.json.Lawful) (hs : ∀ q, GoodSep (md q).separator) :
    (∀ (h : Hier) (c : BCall) (fs : Fs), fs.WF → Plain (segs h.base) → GoodSuffix h.entry → Plain (segs c.path) →
      (c.run env h md fs).2.WF ∧ ∀ l, ¬ NodeArea h l → (c.run env h md fs).2.content l = fs.content l) ∧
    (∀ (h : Hier) (calls : List SCall) (fs : Fs), fs.WF → Plain (segs h.base) → GoodSuffix h.entry →
      '.' ∉ stripDot h.entry.metadataKeySuffix → (openHier env h.base fs).1 = .ok h → FreshDir h fs →
      (∀ c ∈ calls, c.Ok env h md fill) →
      sResults env md calls h fs = sAbsResults h md fill calls AbsHier.empty) ∧
    (∀ (base : Str) (calls : List SCall) (fs : Fs), fs.WF → Plain (segs base) →
      Compatible env EntryPointMetadata.default → FreshDir ⟨base, EntryPointMetadata.default⟩ fs →
      fs.get (segs base ++ [str!"zarr.json"]) = none →
      (∀ c ∈ calls, c.Ok env ⟨base, EntryPointMetadata.default⟩ md fill) →
      ∃ fs', openOrCreate env base fs = (.ok ⟨base, EntryPointMetadata.default⟩, fs') ∧
        sResults env md calls ⟨base, EntryPointMetadata.default⟩ fs' =
          sAbsResults ⟨base, EntryPointMetadata.default⟩ md fill calls AbsHier.empty) := by
  have p2 : ∀ (h : Hier) (calls : List SCall) (fs : Fs), fs.WF → Plain (segs h.base) → GoodSuffix h.entry →
      '.' ∉ stripDot h.entry.metadataKeySuffix → (openHier env h.base fs).1 = .ok h → FreshDir h fs →
      (∀ c ∈ calls, c.Ok env h md fill) →
      sResults env md calls h fs = sAbsResults h md fill calls AbsHier.empty :=
    fun h calls fs hwf hb hsfx hdot ho hf hok =>
      sResults_of_holds hj hb hsfx hdot hs (.fresh hb hs hwf hf) hwf ho calls hok
  refine ⟨fun h c fs hwf hb hsfx hp => bCall_restricted hb hsfx hs c hp hwf, p2, ?_⟩
  intro base calls fs hwf hb hv hf hn hok
  have hwr : Writable fs (segs base ++ [str!"zarr.json"]) := by
    refine ⟨fun l hl hne b => ?_, by rw [hn]; simp⟩
    rcases Fs.prefix_concat.mp hl with h | h
    · exact hf.2 l b h
    · exact absurd h hne
  obtain ⟨fs', h1, h2, _, _⟩ := (C44 hj hwf hb).2.1 hn hwr hv
  obtain ⟨fs1, c1, c2, c3⟩ := (createEntryPoint_spec (env := env) hwf hb hn).1 hwr
  have e : fs1 = fs' := by
    have hp : Plain (segs base ++ [str!"zarr.json"]) := hb.append (by decide)
    have hv' : env.versionReq (lastPiece EntryPointMetadata.default.zarrFormat) = some true := compatible_iff.mp hv
    have : openOrCreate env base fs = (.ok ⟨base, EntryPointMetadata.default⟩, fs1) := by
      simp [openOrCreate, Fs.pathExists, segs_entryPoint, Fs.node_plain hwf hp, hn, c1, checkVersion, getVersion, hv']
    rw [this] at h1
    exact (Prod.mk.inj h1).2
  subst e
  exact ⟨fs1, h1, p2 ⟨base, _⟩ calls fs1 c2 hb (by show GoodSuffix EntryPointMetadata.default; unfold GoodSuffix; decide)
    (by show '.' ∉ stripDot EntryPointMetadata.default.metadataKeySuffix; decide) (by rw [h2]) (freshDir_created hf c3) hok⟩

/-! ## A concrete case -/

/-- The history of C81 with the hierarchy opened again in the middle and at the end, before the last read. -/
def Demo.session : List SCall :=
  Demo.boxHistory.take 4 |>.map .call |>.append (.open :: (Demo.boxHistory.drop 4).map .call) |>.append
    [.openOrCreate, .call (.readBox Demo.path .u16 ⟨[1], [4]⟩)]

example : ∃ fs', openOrCreate Demo.envV str!"/h" Demo.emptyFs = (.ok Demo.hier, fs') ∧
    sResults Demo.envV (fun _ => Demo.arr) Demo.session Demo.hier fs' =
    [.result (.plain (.unit (.ok ()))), .result (.box (.ok ([5], ⟨.u16, ([0, 0, 0, 0, 0] : List (BitVec 16))⟩))),
     .result (.plain (.unit (.ok ()))), .result (.plain (.unit (.ok ()))), .handle (.ok Demo.hier),
     .result (.box (.ok ([5], ⟨.u16, ([0, 10, 77, 12, 0] : List (BitVec 16))⟩))),
     .result (.plain (.data (.ok (some ⟨.u16, ([0, 10] : List (BitVec 16))⟩)))), .result (.plain (.bool (.ok true))),
     .result (.box (.ok ([4], ⟨.u16, ([0, 77, 12, 0] : List (BitVec 16))⟩))), .handle (.ok Demo.hier),
     .result (.box (.ok ([4], ⟨.u16, ([0, 77, 12, 0] : List (BitVec 16))⟩)))] := by
  have hok : ∀ c ∈ Demo.session, c.Ok Demo.envV Demo.hier (fun _ => Demo.arr) Demo.fills := by
    have hp : OrdinaryPath Demo.hier Demo.path := Demo.ordinaryPath (by decide)
    have hb := Demo.boxHistory_ok
    intro c hc
    simp only [Demo.session, List.append_eq, List.append_assoc, List.mem_append, List.mem_map, List.mem_cons,
      List.not_mem_nil, or_false] at hc
    rcases hc with ⟨x, hx, rfl⟩ | (rfl | ⟨x, hx, rfl⟩) | rfl | rfl
    · exact (hb x (List.mem_of_mem_take hx)).version _
    · trivial
    · exact (hb x (List.mem_of_mem_drop hx)).version _
    · trivial
    · exact BCall.Ok.version (env := Demo.envJ) (md := fun _ => Demo.arr) (fill := Demo.fills) (c := .readBox Demo.path .u16 ⟨[1], [4]⟩) _
        ⟨hp, Demo.boxOk (o := 1) (w := 4) (by decide) (by decide)⟩
  obtain ⟨fs', h1, h2⟩ := (C82 Demo.envV (fun _ => Demo.arr) Demo.fills jsonText_lawful (fun _ => .inl rfl)).2.2
    str!"/h" Demo.session Demo.emptyFs Demo.emptyFs_wf (by decide) (compatible_iff.mpr (by decide)) Demo.fresh (by decide) hok
  exact ⟨fs', h1, h2.trans rfl⟩

end Zarr
