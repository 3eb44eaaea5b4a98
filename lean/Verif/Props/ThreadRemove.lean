import Verif.Props.ThreadBoxes
import Verif.Props.RefineBoxes
import Verif.Props.Listing
import Verif.Lemmas.RegionSys
/-!
# Removal and listing among concurrent calls: C93
-/

namespace Zarr

open Spec

/-! ## Specification -/

/-- The calls: those of C81 (with removal and boxes) and `list_nodes`. -/
inductive Spec.WCall where
  | call (c : BCall)
  | listNodes (p : Str)

/-- What a caller sees. -/
inductive Spec.WResult where
  | plain (r : BResult)
  | names (r : Outcome (List Str))

/-- Perform a call; `md` gives the metadata with which the chunks of each path are accessed. -/
def Spec.WCall.run (env : Env) (h : Hier) (md : List Str → ArrayMetadata) : WCall → Fs → WResult × Fs
  | .call c, fs => (.plain (c.run env h md fs).1, (c.run env h md fs).2)
  | .listNodes p, fs => (.names (Zarr.listNodes env h p fs).1, (Zarr.listNodes env h p fs).2)

/-- The results of calls made one after the other. -/
def Spec.wResults (env : Env) (h : Hier) (md : List Str → ArrayMetadata) : List WCall → Fs → List WResult
  | [], _ => []
  | c :: cs, fs => (c.run env h md fs).1 :: wResults env h md cs (c.run env h md fs).2

/-- The filesystem after calls made one after the other. -/
def Spec.wState (env : Env) (h : Hier) (md : List Str → ArrayMetadata) : List WCall → Fs → Fs
  | [], fs => fs
  | c :: cs, fs => wState env h md cs (c.run env h md fs).2

/-- What a call can be about: the documents of a node, all documents below a node, a chunk, all
chunks of a node and of the nodes below it. -/
inductive Spec.Area where
  | docs (p : List Str)
  | below (p : List Str)
  | chunk (p : List Str) (pos : List Nat)
  | data (p : List Str)

/-- The areas have something in common. -/
def Spec.Area.Meets : Area → Area → Prop
  | .docs p, .docs q => p = q
  | .docs p, .below q | .below q, .docs p => q <+: p ∧ q ≠ p
  | .below p, .below q => p <+: q ∨ q <+: p
  | .chunk p a, .chunk q b => p = q ∧ a = b
  | .chunk p _, .data q | .data q, .chunk p _ => q <+: p
  | .data p, .data q => p <+: q ∨ q <+: p
  | _, _ => False

/-- What a call is about. `remove` is about the documents of the node and about the chunks of it and of
all nodes below. -/
def Spec.WCall.Touches (md : List Str → ArrayMetadata) : WCall → Area → Prop
  | .call (.call (.createGroup p)), a | .call (.call (.createArray p _)), a | .call (.call (.setAttributes p _)), a
  | .call (.call (.nodeExists p)), a | .call (.call (.arrayExists p)), a
  | .call (.call (.getArrayMetadata p)), a | .call (.call (.listAttributes p)), a => a = .docs (segs p)
  | .call (.call (.remove p)), a => a = .docs (segs p) ∨ a = .data (segs p)
  | .call (.call (.writeChunk p _ c)), a => a = .chunk (segs p) c.gridPosition
  | .call (.call (.deleteChunk p pos)), a | .call (.call (.readChunk p _ pos)), a => a = .chunk (segs p) pos
  | .call (.readBox p _ b), a => ∃ pos, OverlapsBoth (md (segs p)) b pos ∧ a = .chunk (segs p) pos
  | .call (.writeBox p _ offset array), a =>
    ∃ pos, OverlapsBoth (md (segs p)) ⟨offset, array.shape⟩ pos ∧ a = .chunk (segs p) pos
  | .listNodes p, a => a = .below (segs p)

/-- A call that can change something. -/
def Spec.WCall.changes : WCall → Bool
  | .call (.call c) => c.changes
  | .call (.writeBox ..) => true
  | _ => false

/-- A call that also looks at the directory of the node: `exists` returns true if a file is there. -/
def Spec.WCall.looksAtDir : WCall → Bool
  | .call (.call (.nodeExists _)) | .call (.call (.arrayExists _)) => true
  | _ => false

/-- The path of the node a call is about. -/
def Spec.WCall.path : WCall → Str
  | .call (.call (.createGroup p)) | .call (.call (.createArray p _)) | .call (.call (.setAttributes p _))
  | .call (.call (.nodeExists p)) | .call (.call (.arrayExists p)) | .call (.call (.getArrayMetadata p))
  | .call (.call (.listAttributes p)) | .call (.call (.remove p)) | .call (.call (.writeChunk p _ _))
  | .call (.call (.deleteChunk p _)) | .call (.call (.readChunk p _ _)) | .call (.readBox p _ _)
  | .call (.writeBox p _ _ _) | .listNodes p => p

/-- A box of an array with at least one dimension and chunks of positive size, which it meets. -/
structure Spec.BoxMeetsChunks (m : ArrayMetadata) (b : BBox) : Prop where
  dims : m.shape.length = m.chunkShape.length
  some : m.shape ≠ []
  pos : ∀ k ∈ m.chunkShape, k ≠ 0
  meets : BoxMeetsArray m b

/-- The call has an ordinary path and, if it is about chunks, positions of the right dimension. -/
def Spec.WCall.Fits (h : Hier) (md : List Str → ArrayMetadata) : WCall → Prop
  | .call (.call c) => c.Fits h md
  | .call (.readBox p _ b) => OrdinaryPath h p ∧ BoxMeetsChunks (md (segs p)) b
  | .call (.writeBox p _ offset array) => OrdinaryPath h p ∧ BoxMeetsChunks (md (segs p)) ⟨offset, array.shape⟩
  | .listNodes p => OrdinaryPath h p

/-- No file stands where a directory of the node, or above a chunk that the call is about, should be. -/
def Spec.WCall.Open (h : Hier) (md : List Str → ArrayMetadata) (c : WCall) (fs : Fs) : Prop :=
  (∀ q, q <+: implicitLoc h c.path ∨ q <+: dataLoc h c.path → ∀ b, fs.get q ≠ some (.file b)) ∧
  ∀ pos, c.Touches md (.chunk (segs c.path) pos) → ∀ q,
    q <+: chunkLoc h c.path (md (segs c.path)).separator pos →
    q ≠ chunkLoc h c.path (md (segs c.path)).separator pos → ∀ b, fs.get q ≠ some (.file b)

namespace Wide

/-! ## The calls as programs -/

/-- A call as a program of store calls. -/
def callProg (env : Env) (h : Hier) (md : List Str → ArrayMetadata) : WCall → Prog WResult
  | .call (.call (.remove p)) => (remove h p).record fun r => .plain (.plain (.unit r))
  | .call (.call c) =>
    match Threads.HCall.prog env h md c with
    | some P => (Prog.of P).bind fun r => .done (.ok (.plain (.plain r)))
    | none => .done .panic
  | .call (.readBox p t b) => (Prog.of (Threads.readNdarray env p (md (segs p)) t b)).record fun r =>
      .plain (.box (r >>= fun a => .ok (a.shape, ⟨t, tabulate .rowMajor a.shape a.get⟩)))
  | .call (.writeBox p _ offset array) =>
    (Prog.of (Threads.writeNdarray env p (md (segs p)) offset array)).record fun r => .plain (.plain (.unit r))
  | .listNodes p => (listNodes env h p).record .names

/-- A thread that makes calls one after the other and collects their results. -/
def threadProg (env : Env) (h : Hier) (md : List Str → ArrayMetadata) : List WCall → Prog (List WResult)
  | [] => .done (.ok [])
  | c :: cs => (callProg env h md c).bind fun r => (threadProg env h md cs).bind fun rs => .done (.ok (r :: rs))

section
variable {α β : Type} {h : Hier}

theorem run_bind (p : Prog α) (f : α → Prog β) (fs : Fs) :
    (p.bind f).run h fs = (p.run h >>= fun a => (f a).run h : M Fs β) fs := by
  induction p generalizing fs with
  | done r => cases r <;> rfl
  | «exists» key k ih => simp only [Prog.bind, Prog.run]; rw [ih]; rfl
  | get key k ih => simp only [Prog.bind, Prog.run]; rw [ih]; rfl
  | set key v k ih => simp only [Prog.bind, Prog.run]; rw [ih]; rfl
  | erase key k ih => simp only [Prog.bind, Prog.run]; rw [ih]; rfl
  | erasePrefix key k ih => simp only [Prog.bind, Prog.run]; rw [ih]; rfl
  | listDir key k ih => simp only [Prog.bind, Prog.run]; rw [ih]; rfl

theorem run_record (f : Outcome α → β) (p : Prog α) (fs : Fs) :
    (p.record f).run h fs = (.ok (f (p.run h fs).1), (p.run h fs).2) := by
  induction p generalizing fs with
  | done r => rfl
  | «exists» key k ih => exact ih _ _
  | get key k ih => exact ih _ _
  | set key v k ih => exact ih _ _
  | erase key k ih => exact ih _ _
  | erasePrefix key k ih => exact ih _ _
  | listDir key k ih => exact ih _ _

theorem run_of (p : Threads.Prog α) (fs : Fs) : (Prog.of p).run h fs = p.run h fs := by
  induction p generalizing fs with
  | done r => rfl
  | «exists» key k ih => exact ih _ _
  | get key k ih => exact ih _ _
  | set key v k ih => exact ih _ _
  | erase key k ih => exact ih _ _

theorem run_remove (p : Str) (fs : Fs) : (remove h p).run h fs = Zarr.remove h p fs := by
  show (Prog.bind _ _).run h fs = _
  rw [run_bind]
  simp only [Zarr.remove, M.bind_apply]
  have e1 : (Prog.erase (groupMetadataKey h.entry p) .done : Prog Bool).run h fs = storeErase h (groupMetadataKey h.entry p) fs := by
    simp only [Prog.run]; rfl
  rw [e1]
  cases storeErase h (groupMetadataKey h.entry p) fs with
  | mk r f1 =>
    cases r with
    | err e => rfl
    | panic => rfl
    | ok a =>
      simp only
      show (Prog.bind _ _).run h f1 = _
      rw [run_bind, M.bind_apply]
      have e2 : (Prog.erase (arrayMetadataKey h.entry p) .done : Prog Bool).run h f1 =
          storeErase h (arrayMetadataKey h.entry p) f1 := by
        simp only [Prog.run]; rfl
      rw [e2]
      cases storeErase h (arrayMetadataKey h.entry p) f1 with
      | mk r f2 =>
        cases r with
        | err e => rfl
        | panic => rfl
        | ok a =>
          simp only
          show (Prog.bind _ _).run h f2 = _
          rw [run_bind, M.bind_apply]
          have e3 : (Prog.erasePrefix (dataPathKey p) .done : Prog Bool).run h f2 =
              storeErasePrefix h (dataPathKey p) f2 := by
            simp only [Prog.run]; rfl
          rw [e3]
          cases storeErasePrefix h (dataPathKey p) f2 with
          | mk r f3 => cases r <;> rfl

theorem run_listNodes (env : Env) (p : Str) (fs : Fs) : (listNodes env h p).run h fs = Zarr.listNodes env h p fs := by
  show (Prog.bind _ _).run h fs = _
  rw [run_bind]
  simp only [Zarr.listNodes, M.bind_apply]
  have e1 : (Prog.listDir (metaRoot ++ '/' :: canonicalizePath p) .done : Prog (List Str × List Str)).run h fs =
      storeListDir h (metaRoot ++ '/' :: canonicalizePath p) fs := by
    simp only [Prog.run]; rfl
  rw [e1]
  cases storeListDir h (metaRoot ++ '/' :: canonicalizePath p) fs with
  | mk r f1 => cases r <;> rfl

variable {env : Env} {md : List Str → ArrayMetadata}

/-- The program of a call does what the call does. -/
theorem run_call (c : WCall) (fs : Fs) :
    (callProg env h md c).run h fs = (.ok (c.run env h md fs).1, (c.run env h md fs).2) := by
  cases c with
  | listNodes p => simp only [callProg, run_record, run_listNodes, WCall.run]
  | call c =>
    cases c with
    | readBox p t b =>
      simp only [callProg, run_record, run_of, Threads.run_readNdarray, WCall.run, BCall.run]
    | writeBox p t o a =>
      simp only [callProg, run_record, run_of, Threads.run_writeNdarray, WCall.run, BCall.run]
    | call c =>
      by_cases hc : ∃ p, c = .remove p
      · obtain ⟨p, rfl⟩ := hc
        simp only [callProg, run_record, run_remove, WCall.run, BCall.run, HCall.run]
      · have hp : ∃ P, Threads.HCall.prog env h md c = some P := by
          cases c <;> first | exact ⟨_, rfl⟩ | exact absurd ⟨_, rfl⟩ hc
        obtain ⟨P, hP⟩ := hp
        have e : callProg env h md (.call (.call c)) =
            (Prog.of P).bind fun r => .done (.ok (.plain (.plain r))) := by
          unfold callProg
          split
          · rename_i p he
            simp only [WCall.call.injEq, BCall.call.injEq] at he
            exact absurd ⟨_, he⟩ hc
          · rename_i c' _ he
            simp only [WCall.call.injEq, BCall.call.injEq] at he
            subst he
            rw [hP]
          · rename_i he; simp at he
          · rename_i he; simp at he
          · rename_i he; simp at he
        rw [e, run_bind, M.bind_apply, run_of, Threads.run_call hP]
        rfl

theorem run_thread (cs : List WCall) (fs : Fs) :
    (threadProg env h md cs).run h fs = (.ok (wResults env h md cs fs), wState env h md cs fs) := by
  induction cs generalizing fs with
  | nil => rfl
  | cons c cs ih =>
    rw [threadProg, run_bind, M.bind_apply, run_call]
    simp only
    rw [run_bind, M.bind_apply, ih]
    rfl

/-! ## The locations a call uses -/

section
variable {N V W : Loc → Prop}

theorem uses_bind {p : Prog α} {f : α → Prog β} (hp : p.Uses h N V W) (hf : ∀ a, (f a).Uses h N V W) :
    (p.bind f).Uses h N V W := by
  induction p with
  | done r => cases r <;> first | exact hf _ | trivial
  | _ => rename_i ih; exact ⟨hp.1, hp.2.1, fun r => ih r (hp.2.2 r)⟩

theorem uses_record {p : Prog α} {f : Outcome α → β} (hp : p.Uses h N V W) : (p.record f).Uses h N V W := by
  induction p with
  | done r => trivial
  | _ => rename_i ih; exact ⟨hp.1, hp.2.1, fun r => ih r (hp.2.2 r)⟩

theorem uses_of {R : Loc → Prop} {p : Threads.Prog α} (hp : p.Uses h R W) (hR : ∀ l, R l → V l)
    (hW : ∀ l, W l → V l) : (Prog.of p).Uses h N V W := by
  induction p with
  | done r => trivial
  | «exists» key k ih => exact ⟨hp.1, .inl (hp.2.1.elim (hR _) (hW _)), fun r => ih r (hp.2.2 r)⟩
  | get key k ih => exact ⟨hp.1, hp.2.1.elim (hR _) (hW _), fun r => ih r (hp.2.2 r)⟩
  | set key v k ih => exact ⟨hp.1, hp.2.1, fun r => ih r (hp.2.2 r)⟩
  | erase key k ih => exact ⟨hp.1, hp.2.1, fun r => ih r (hp.2.2 r)⟩

theorem uses_of_bind {p : Threads.Prog α} {f : α → Threads.Prog β} (hp : (Prog.of p).Uses h N V W)
    (hf : ∀ a, (Prog.of (f a)).Uses h N V W) : (Prog.of (p >>= f)).Uses h N V W := by
  rw [Threads.Prog.bind_def]
  induction p with
  | done r => cases r <;> first | exact hf _ | trivial
  | _ => rename_i ih; exact ⟨hp.1, hp.2.1, fun r => ih r (hp.2.2 r)⟩

theorem uses_of_record {p : Threads.Prog α} {f : Outcome α → β} (hp : (Prog.of p).Uses h N V W) :
    (Prog.of (p.record f)).Uses h N V W := by
  induction p with
  | done r => trivial
  | _ => rename_i ih; exact ⟨hp.1, hp.2.1, fun r => ih r (hp.2.2 r)⟩

end

/-- Where a box visits the array. -/
def visited (m : ArrayMetadata) (b : BBox) : List (List Nat) :=
  match m.boundedCoordIter b with
  | .ok it => it.rest
  | _ => []

/-- The two documents of a node. -/
def docRoots (h : Hier) (p : Str) : List Loc := [docLoc h str!"array" p, docLoc h str!"group" p]

/-- The roots of what a call uses. The first root of `exists`, which is no location of a real file, only
stands for being above it. -/
def rootsOf (h : Hier) (md : List Str → ArrayMetadata) : WCall → List Loc
  | .call (.call (.createGroup p)) | .call (.call (.createArray p _)) | .call (.call (.setAttributes p _))
  | .call (.call (.getArrayMetadata p)) | .call (.call (.listAttributes p)) => docRoots h p
  | .call (.call (.nodeExists p)) | .call (.call (.arrayExists p)) =>
    (implicitLoc h p ++ [str!"/"]) :: docRoots h p
  | .call (.call (.remove p)) => dataLoc h p :: docRoots h p
  | .call (.call (.writeChunk p _ c)) => [h.loc (chunkKey p (md (segs p)) c.gridPosition)]
  | .call (.call (.deleteChunk p pos)) | .call (.call (.readChunk p _ pos)) =>
    [h.loc (chunkKey p (md (segs p)) pos)]
  | .call (.readBox p _ b) => (visited (md (segs p)) b).map fun pos => h.loc (chunkKey p (md (segs p)) pos)
  | .call (.writeBox p _ offset array) =>
    (visited (md (segs p)) ⟨offset, array.shape⟩).map fun pos => h.loc (chunkKey p (md (segs p)) pos)
  | .listNodes p => [implicitLoc h p]

/-- What the roots are. -/
inductive RootKind (h : Hier) (md : List Str → ArrayMetadata) (c : WCall) : Loc → Prop
  | array : OrdinaryPath h c.path → c.Touches md (.docs (segs c.path)) → RootKind h md c (docLoc h str!"array" c.path)
  | group : OrdinaryPath h c.path → c.Touches md (.docs (segs c.path)) → RootKind h md c (docLoc h str!"group" c.path)
  | spot : OrdinaryPath h c.path → c.changes = false → c.looksAtDir = true → c.Touches md (.docs (segs c.path)) →
      RootKind h md c (implicitLoc h c.path ++ [str!"/"])
  | below : OrdinaryPath h c.path → c.changes = false → c.Touches md (.below (segs c.path)) →
      RootKind h md c (implicitLoc h c.path)
  | data : OrdinaryPath h c.path → c.Touches md (.data (segs c.path)) → RootKind h md c (dataLoc h c.path)
  | chunk (pos : List Nat) : OrdinaryPath h c.path → pos.length = (md (segs c.path)).shape.length →
      c.Touches md (.chunk (segs c.path) pos) →
      RootKind h md c (h.loc (chunkKey c.path (md (segs c.path)) pos))

theorem visited_spec {m : ArrayMetadata} {b : BBox} (hf : BoxMeetsChunks m b) {pos : List Nat} (hp : pos ∈ visited m b) :
    OverlapsBoth m b pos ∧ pos.length = m.shape.length := by
  unfold visited at hp
  split at hp
  · rename_i it hit
    have ho := Threads.visited_overlap hf.dims hf.some hf.pos hf.meets hit hp
    refine ⟨ho, ?_⟩
    obtain ⟨q, h1, _, h3⟩ := ho
    have := Covers.length h3
    have := Inside.length h1
    have := hf.dims
    omega
  · simp at hp

theorem rootKind {c : WCall} (hok : c.Fits h md) {r : Loc} (hr : r ∈ rootsOf h md c) : RootKind h md c r := by
  cases c with
  | listNodes p =>
    simp only [rootsOf, List.mem_singleton] at hr
    subst hr
    exact .below (c := .listNodes p) hok rfl rfl
  | call c =>
    cases c with
    | readBox p t b =>
      obtain ⟨pos, h1, rfl⟩ := List.mem_map.mp hr
      obtain ⟨h2, h3⟩ := visited_spec hok.2 h1
      exact .chunk (c := .call (.readBox p t b)) pos hok.1 h3 ⟨pos, h2, rfl⟩
    | writeBox p t o a =>
      obtain ⟨pos, h1, rfl⟩ := List.mem_map.mp hr
      obtain ⟨h2, h3⟩ := visited_spec hok.2 h1
      exact .chunk (c := .call (.writeBox p t o a)) pos hok.1 h3 ⟨pos, h2, rfl⟩
    | call c =>
      cases c with
      | remove p =>
        simp only [rootsOf, docRoots, List.mem_cons, List.not_mem_nil, or_false] at hr
        rcases hr with rfl | rfl | rfl
        · exact .data (c := .call (.call (.remove p))) hok (.inr rfl)
        · exact .array (c := .call (.call (.remove p))) hok (.inl rfl)
        · exact .group (c := .call (.call (.remove p))) hok (.inl rfl)
      | writeChunk p t c =>
        simp only [rootsOf, List.mem_singleton] at hr
        subst hr
        exact .chunk (c := .call (.call (.writeChunk p t c))) _ hok.1 hok.2 rfl
      | deleteChunk p pos =>
        simp only [rootsOf, List.mem_singleton] at hr
        subst hr
        exact .chunk (c := .call (.call (.deleteChunk p pos))) _ hok.1 hok.2 rfl
      | readChunk p t pos =>
        simp only [rootsOf, List.mem_singleton] at hr
        subst hr
        exact .chunk (c := .call (.call (.readChunk p t pos))) _ hok.1 hok.2 rfl
      | nodeExists p =>
        simp only [rootsOf, docRoots, List.mem_cons, List.not_mem_nil, or_false] at hr
        rcases hr with rfl | rfl | rfl
        · exact .spot (c := .call (.call (.nodeExists p))) hok rfl rfl rfl
        · exact .array (c := .call (.call (.nodeExists p))) hok rfl
        · exact .group (c := .call (.call (.nodeExists p))) hok rfl
      | arrayExists p =>
        simp only [rootsOf, docRoots, List.mem_cons, List.not_mem_nil, or_false] at hr
        rcases hr with rfl | rfl | rfl
        · exact .spot (c := .call (.call (.arrayExists p))) hok rfl rfl rfl
        · exact .array (c := .call (.call (.arrayExists p))) hok rfl
        · exact .group (c := .call (.call (.arrayExists p))) hok rfl
      | createGroup p =>
        simp only [rootsOf, docRoots, List.mem_cons, List.not_mem_nil, or_false] at hr
        rcases hr with rfl | rfl
        · exact .array (c := .call (.call (.createGroup p))) hok rfl
        · exact .group (c := .call (.call (.createGroup p))) hok rfl
      | createArray p m =>
        simp only [rootsOf, docRoots, List.mem_cons, List.not_mem_nil, or_false] at hr
        rcases hr with rfl | rfl
        · exact .array (c := .call (.call (.createArray p m))) hok rfl
        · exact .group (c := .call (.call (.createArray p m))) hok rfl
      | setAttributes p b =>
        simp only [rootsOf, docRoots, List.mem_cons, List.not_mem_nil, or_false] at hr
        rcases hr with rfl | rfl
        · exact .array (c := .call (.call (.setAttributes p b))) hok rfl
        · exact .group (c := .call (.call (.setAttributes p b))) hok rfl
      | getArrayMetadata p =>
        simp only [rootsOf, docRoots, List.mem_cons, List.not_mem_nil, or_false] at hr
        rcases hr with rfl | rfl
        · exact .array (c := .call (.call (.getArrayMetadata p))) hok rfl
        · exact .group (c := .call (.call (.getArrayMetadata p))) hok rfl
      | listAttributes p =>
        simp only [rootsOf, docRoots, List.mem_cons, List.not_mem_nil, or_false] at hr
        rcases hr with rfl | rfl
        · exact .array (c := .call (.call (.listAttributes p))) hok rfl
        · exact .group (c := .call (.call (.listAttributes p))) hok rfl

/-! ### Roots do not lie above each other -/

theorem meta_doc_split (h : Hier) (kind p : Str) : ∃ i a, implicitLoc h p = segs h.base ++ (i ++ [a]) ∧
    docLoc h kind p = segs h.base ++ (i ++ [a ++ ('.' :: kind ++ '.' :: stripDot h.entry.metadataKeySuffix)]) := by
  obtain ⟨i, a, e1, e2⟩ := docLoc_split h kind p
  exact ⟨i, a, by rw [← e1]; rfl, e2⟩

theorem prefix_snoc {l m : Loc} {x : Str} (hl : l <+: m ++ [x]) : l = m ++ [x] ∨ l <+: m := by
  rw [List.prefix_concat_iff] at hl
  exact hl

/-- An ordinary path below another one. -/
theorem ordinary_child {q : Str} (hq : OrdinaryPath h q) : ∃ q', OrdinaryPath h q' ∧ segs q' = segs q ++ [str!"x"] := by
  have hx : segs (q ++ '/' :: str!"x") = segs q ++ [str!"x"] := by
    rw [segs_append_sep, segs_single str!"x" (by decide) (by decide) (by decide)]
  refine ⟨q ++ '/' :: str!"x", ?_, hx⟩
  intro s hs
  rw [hx] at hs
  rcases List.mem_append.mp hs with hs | hs
  · exact hq s hs
  · simp only [List.mem_singleton] at hs
    subst hs
    refine ⟨by decide, ?_, ?_, ?_⟩
    · rintro (h1 | ⟨d, r, h1, _⟩)
      · exact absurd h1 (by decide)
      · simp at h1
    · intro h1; have := h1.length_le; simp at this
    · intro h1; have := h1.length_le; simp at this

/-- No document lies above the directory of a node. -/
theorem doc_not_above {kind p q : Str} (hk : kind = str!"array" ∨ kind = str!"group") (hp : OrdinaryPath h p) (hq : OrdinaryPath h q) :
    ¬ docLoc h kind p <+: implicitLoc h q := by
  intro hpre
  obtain ⟨q', hq', e⟩ := ordinary_child hq
  have hf : FileLoc h (fun _ => { Demo.arr with separator := str!"/" }) (docLoc h kind p) := by
    rcases hk with rfl | rfl
    · exact .array p hp
    · exact .group p hp
  obtain ⟨i, a, e1, e2⟩ := meta_doc_split h str!"group" q'
  have hi : segs h.base ++ i = implicitLoc h q := by
    have e3 : implicitLoc h q' = implicitLoc h q ++ [str!"x"] := by
      simp only [implicitLoc, e, List.append_assoc]
    rw [e3, ← List.append_assoc] at e1
    exact (List.append_inj' e1 rfl).1.symm
  have hpre2 : docLoc h kind p <+: docLoc h str!"group" q' := by
    rw [e2, ← List.append_assoc, hi]
    exact hpre.trans (List.prefix_append _ _)
  have he := FileLoc.antichain (md := fun _ => { Demo.arr with separator := str!"/" }) (fun _ => .inl rfl) hf (.group q' hq') hpre2
  rw [he, e2, ← List.append_assoc, hi] at hpre
  have := hpre.length_le
  simp at this
  omega

/-- A document below the directory of a node is one of a node below it. -/
theorem doc_below {kind p q : Str} (hk : kind = str!"array" ∨ kind = str!"group") (hp : OrdinaryPath h p) (hq : OrdinaryPath h q)
    (hpre : implicitLoc h q <+: docLoc h kind p) : segs q <+: segs p ∧ segs q ≠ segs p := by
  obtain ⟨i, a, e1, e2⟩ := meta_doc_split h kind p
  rw [e2, ← List.append_assoc] at hpre
  rcases prefix_snoc hpre with he | hpre
  · exact absurd (by rw [he, e2, List.append_assoc]; exact List.prefix_rfl) (doc_not_above hk hp hq)
  · have h1 : implicitLoc h q <+: implicitLoc h p := by
      rw [e1, ← List.append_assoc]; exact hpre.trans (List.prefix_append _ _)
    refine ⟨?_, fun he => ?_⟩
    · simpa [implicitLoc] using h1
    · have h2 : implicitLoc h q = implicitLoc h p := by unfold implicitLoc; rw [he]
      rw [h2, e1, ← List.append_assoc] at hpre
      have := hpre.length_le
      simp at this
      omega

theorem doc_spot {kind p q : Str} (hk : kind = str!"array" ∨ kind = str!"group") (hp : OrdinaryPath h p) (hq : OrdinaryPath h q) :
    ¬ docLoc h kind p <+: implicitLoc h q ++ [str!"/"] ∧ ¬ implicitLoc h q ++ [str!"/"] <+: docLoc h kind p := by
  obtain ⟨i, a, e1, e2⟩ := meta_doc_split h kind p
  have hlast : docLoc h kind p ≠ implicitLoc h q ++ [str!"/"] := by
    intro he
    rw [e2, ← List.append_assoc] at he
    have := (List.append_inj' he rfl).2
    have := congrArg List.length (List.cons.inj this).1
    simp at this
    omega
  refine ⟨fun hpre => ?_, fun hpre => ?_⟩
  · rcases prefix_snoc hpre with he | hpre
    · exact hlast he
    · exact doc_not_above hk hp hq hpre
  · rw [e2, ← List.append_assoc] at hpre
    rcases prefix_snoc hpre with he | hpre
    · exact hlast (by rw [he, e2, List.append_assoc])
    · have h1 : implicitLoc h q ++ [str!"/"] <+: implicitLoc h p := by
        rw [e1, ← List.append_assoc]; exact hpre.trans (List.prefix_append _ _)
      have h2 : segs q ++ [str!"/"] <+: segs p := by simpa [implicitLoc] using h1
      exact (mem_segs (h2.subset (show str!"/" ∈ segs q ++ [str!"/"] by simp))).1 (by simp)

theorem data_not_meta {kind p q : Str} : ¬ dataLoc h p <+: docLoc h kind q ∧ ¬ docLoc h kind q <+: dataLoc h p := by
  refine ⟨docLoc_not_data, ?_⟩
  rintro ⟨r, hr⟩
  obtain ⟨x, r', h1, h2⟩ := docLoc_head h kind q
  rw [h1, h2, dataLoc, List.append_assoc] at hr
  have := List.append_cancel_left hr
  simp at this

theorem head_apart {a b : Str} {x y : Loc} (hab : a ≠ b) : ¬ segs h.base ++ a :: x <+: segs h.base ++ b :: y := by
  rintro ⟨r, hr⟩
  rw [List.append_assoc] at hr
  have := List.append_cancel_left hr
  simp only [List.cons_append, List.cons.injEq] at this
  exact hab this.1

theorem spot_head (p : Str) : ∃ x, implicitLoc h p ++ [str!"/"] = segs h.base ++ str!"meta" :: x :=
  ⟨str!"root" :: (segs p ++ [str!"/"]), by simp [implicitLoc]⟩

/-- How a root begins. -/
theorem RootKind.head {c : WCall} {r : Loc} (hk : RootKind h md c r) :
    (∃ x, r = segs h.base ++ str!"meta" :: x) ∨ ∃ x, r = segs h.base ++ str!"data" :: x := by
  cases hk with
  | array => obtain ⟨x, r, h1, rfl⟩ := docLoc_head h str!"array" c.path; exact .inl ⟨r, h1⟩
  | group => obtain ⟨x, r, h1, rfl⟩ := docLoc_head h str!"group" c.path; exact .inl ⟨r, h1⟩
  | spot => exact .inl (spot_head _)
  | below => exact .inl ⟨_, rfl⟩
  | data => exact .inr ⟨_, rfl⟩
  | chunk pos => obtain ⟨r, h1⟩ := chunkLoc_head h c.path (md (segs c.path)) pos; exact .inr ⟨r, h1⟩

theorem chunk_eq (p : Str) (m : ArrayMetadata) (pos : List Nat) :
    h.loc (chunkKey p m pos) = dataLoc h p ++ chunkTail m.separator pos := by
  rw [Hier.loc, segs_chunkKey, dataLoc]; simp

theorem chunk_data {p q : Str} {pos : List Nat} (hs : ∀ q, GoodSep (md q).separator)
    (hq : OrdinaryPath h q) :
    ¬ h.loc (chunkKey p (md (segs p)) pos) <+: dataLoc h q ∧
    (dataLoc h q <+: h.loc (chunkKey p (md (segs p)) pos) → segs q <+: segs p) := by
  obtain ⟨s, t, e, hc⟩ := chunkTail_like (md (segs p)).separator pos (hs _)
  rw [chunk_eq, e]
  refine ⟨fun hpre => ?_, fun hpre => ?_⟩
  · have h2 : segs p ++ s :: t <+: segs q := by simpa [dataLoc] using hpre
    exact (hq s (h2.subset (by simp))).chunk hc
  · have h2 : segs q <+: segs p ++ s :: t := by simpa [dataLoc] using hpre
    obtain ⟨u, hu⟩ := h2
    rcases List.append_eq_append_iff.mp hu with ⟨w, h1, _⟩ | ⟨w, h1, h3⟩
    · exact ⟨w, h1.symm⟩
    · cases w with
      | nil => rw [h1]; simp
      | cons x xs =>
        simp only [List.cons_append, List.cons.injEq] at h3
        exact absurd (h3.1 ▸ hc) (hq x (by rw [h1]; simp)).chunk

/-- The roots of calls about different things do not lie above each other. -/
theorem roots_apart {c c' : WCall} {r r' : Loc} (hs : ∀ q, GoodSep (md q).separator) (hk : RootKind h md c r)
    (hk' : RootKind h md c' r') (hch : c.changes = true)
    (hsep : ∀ a b, c.Touches md a → c'.Touches md b → ¬ a.Meets b) : ¬ r <+: r' ∧ ¬ r' <+: r := by
  have hmd : ∀ x y : Loc, ¬ segs h.base ++ str!"meta" :: x <+: segs h.base ++ str!"data" :: y ∧
      ¬ segs h.base ++ str!"data" :: y <+: segs h.base ++ str!"meta" :: x :=
    fun x y => ⟨head_apart (by decide), head_apart (by decide)⟩
  have hmeta : (∃ x, r = segs h.base ++ str!"meta" :: x) → (∃ x, r' = segs h.base ++ str!"data" :: x) →
      ¬ r <+: r' ∧ ¬ r' <+: r := by rintro ⟨x, rfl⟩ ⟨y, rfl⟩; exact hmd x y
  have hdata : (∃ x, r = segs h.base ++ str!"data" :: x) → (∃ x, r' = segs h.base ++ str!"meta" :: x) →
      ¬ r <+: r' ∧ ¬ r' <+: r := by rintro ⟨x, rfl⟩ ⟨y, rfl⟩; exact (hmd y x).symm
  -- a document of the changing call
  have hdoc : ∀ kind, kind = str!"array" ∨ kind = str!"group" → OrdinaryPath h c.path →
      c.Touches md (.docs (segs c.path)) → r = docLoc h kind c.path → ¬ r <+: r' ∧ ¬ r' <+: r := by
    intro kind hkd hp ht e
    have hhead : ∃ x, r = segs h.base ++ str!"meta" :: x := by
      obtain ⟨x, y, h1, rfl⟩ := docLoc_head h kind c.path; exact ⟨y, e.trans h1⟩
    have hf : FileLoc h md r := by
      rcases hkd with rfl | rfl
      · rw [e]; exact .array _ hp
      · rw [e]; exact .group _ hp
    have hdd : ∀ kind', kind' = str!"array" ∨ kind' = str!"group" → OrdinaryPath h c'.path →
        c'.Touches md (.docs (segs c'.path)) → r' = docLoc h kind' c'.path → ¬ r <+: r' ∧ ¬ r' <+: r := by
      intro kind' hkd' hp' ht' e'
      have hf' : FileLoc h md r' := by
        rcases hkd' with rfl | rfl
        · rw [e']; exact .array _ hp'
        · rw [e']; exact .group _ hp'
      have hne : r ≠ r' := by
        intro he
        refine hsep _ _ ht ht' ?_
        rw [e, e'] at he
        rcases hkd with rfl | rfl <;> rcases hkd' with rfl | rfl
        · exact docLoc_injective he
        · exact absurd he docLoc_array_ne_group
        · exact absurd he.symm docLoc_array_ne_group
        · exact docLoc_injective he
      exact ⟨fun hx => hne (FileLoc.antichain hs hf hf' hx), fun hx => hne (FileLoc.antichain hs hf' hf hx).symm⟩
    cases hk' with
    | array hp' ht' => exact hdd _ (.inl rfl) hp' ht' rfl
    | group hp' ht' => exact hdd _ (.inr rfl) hp' ht' rfl
    | spot hp' _ => rw [e]; exact doc_spot hkd hp hp'
    | below hp' _ ht' =>
      rw [e]
      exact ⟨doc_not_above hkd hp hp', fun hx => hsep _ _ ht ht' (doc_below hkd hp hp' hx)⟩
    | data => exact hmeta hhead ⟨_, rfl⟩
    | chunk pos => exact hmeta hhead (chunkLoc_head h c'.path (md (segs c'.path)) pos)
  cases hk with
  | array hp ht => exact hdoc _ (.inl rfl) hp ht rfl
  | group hp ht => exact hdoc _ (.inr rfl) hp ht rfl
  | spot _ hx => rw [hch] at hx; simp at hx
  | below _ hx => rw [hch] at hx; simp at hx
  | data hp ht =>
    cases hk' with
    | data hp' ht' =>
      refine ⟨fun hx => hsep _ _ ht ht' (.inl ?_), fun hx => hsep _ _ ht ht' (.inr ?_)⟩
      · simpa [dataLoc] using hx
      · simpa [dataLoc] using hx
    | chunk pos hp' hl' ht' =>
      have := chunk_data (p := c'.path) (pos := pos) hs hp
      exact ⟨fun hx => hsep _ _ ht ht' (this.2 hx), this.1⟩
    | array => exact hdata ⟨_, rfl⟩ (by obtain ⟨x, y, h1, rfl⟩ := docLoc_head h str!"array" c'.path; exact ⟨y, h1⟩)
    | group => exact hdata ⟨_, rfl⟩ (by obtain ⟨x, y, h1, rfl⟩ := docLoc_head h str!"group" c'.path; exact ⟨y, h1⟩)
    | spot => exact hdata ⟨_, rfl⟩ (spot_head _)
    | below => exact hdata ⟨_, rfl⟩ ⟨_, rfl⟩
  | chunk pos hp hl ht =>
    have hhead := chunkLoc_head h c.path (md (segs c.path)) pos
    cases hk' with
    | data hp' ht' =>
      have := chunk_data (p := c.path) (pos := pos) hs hp'
      exact ⟨this.1, fun hx => hsep _ _ ht ht' (this.2 hx)⟩
    | chunk pos' hp' hl' ht' =>
      have hne : h.loc (chunkKey c.path (md (segs c.path)) pos) ≠ h.loc (chunkKey c'.path (md (segs c'.path)) pos') :=
        fun he => hsep _ _ ht ht' (Threads.chunkLoc_inj hs hp hp' he)
      exact ⟨fun hx => hne (chunkLoc_antichain hs hp hp' hl hl' hx),
        fun hx => hne (chunkLoc_antichain hs hp' hp hl' hl hx).symm⟩
    | array => exact hdata hhead (by obtain ⟨x, y, h1, rfl⟩ := docLoc_head h str!"array" c'.path; exact ⟨y, h1⟩)
    | group => exact hdata hhead (by obtain ⟨x, y, h1, rfl⟩ := docLoc_head h str!"group" c'.path; exact ⟨y, h1⟩)
    | spot => exact hdata hhead (spot_head _)
    | below => exact hdata hhead ⟨_, rfl⟩

theorem RootKind.plain {c : WCall} {r : Loc} (hb : Plain (segs h.base)) (hs : ∀ q, GoodSep (md q).separator)
    (hk : RootKind h md c r) : Plain r := by
  cases hk with
  | array hp => exact plain_docLoc hb hp.plain (by simp)
  | group hp => exact plain_docLoc hb hp.plain (by simp)
  | spot hp => exact (hb.append (Plain.append (a := [str!"meta", str!"root"]) (by decide) hp.plain)).append (by decide)
  | below hp => exact hb.append (Plain.append (a := [str!"meta", str!"root"]) (by decide) hp.plain)
  | data hp => exact plain_dataLoc hb hp.plain
  | chunk pos hp => exact plain_loc_chunk hb hp.plain (hs _) _

theorem RootKind.ne_nil {c : WCall} {r : Loc} (hk : RootKind h md c r) : r ≠ [] := by
  rcases hk.head with ⟨x, rfl⟩ | ⟨x, rfl⟩ <;> simp

/-- No file stands above a root. -/
theorem RootKind.open {c : WCall} {r l : Loc} {fs : Fs} (hs : ∀ q, GoodSep (md q).separator)
    (hk : RootKind h md c r) (ho : c.Open h md fs) (hl : l <+: r) (hne : l ≠ r) (b : Bytes) : fs.get l ≠ some (.file b) := by
  have hdoc : ∀ kind, r = docLoc h kind c.path → fs.get l ≠ some (.file b) := by
    intro kind e
    obtain ⟨i, a, e1, e2⟩ := meta_doc_split h kind c.path
    rw [e, e2, ← List.append_assoc] at hl
    rcases prefix_snoc hl with he | hl
    · exact absurd (by rw [he, e, e2, List.append_assoc]) hne
    · refine ho.1 l (.inl ?_) b
      rw [e1, ← List.append_assoc]
      exact hl.trans (List.prefix_append _ _)
  cases hk with
  | array => exact hdoc _ rfl
  | group => exact hdoc _ rfl
  | spot hp =>
    rcases prefix_snoc hl with he | hl
    · exact absurd he hne
    · exact ho.1 l (.inl hl) b
  | below => exact ho.1 l (.inl hl) b
  | data => exact ho.1 l (.inr hl) b
  | chunk pos hp hlen ht =>
    have e := loc_chunkKey (h := h) (path := c.path) (m := md (segs c.path)) (pos := pos) ((hs _).imp id (·.2))
    rw [e] at hl hne
    exact ho.2 pos ht l hl hne b

section
variable {N V W : Loc → Prop}

theorem mem_visited {m : ArrayMetadata} {b : BBox} {it : CoordIter} (hit : m.boundedCoordIter b = .ok it) {pos : List Nat}
    (hp : pos ∈ it.rest) : pos ∈ visited m b := by
  unfold visited; rw [hit]; exact hp

/-- A call uses what is below its roots. -/
theorem uses_call {c : WCall} (hb : Plain (segs h.base)) (hsfx : GoodSuffix h.entry)
    (hdot : '.' ∉ stripDot h.entry.metadataKeySuffix) (hs : ∀ q, GoodSep (md q).separator) (hok : c.Fits h md)
    (hV : ∀ r ∈ rootsOf h md c, V r) (hN : ∀ p, implicitLoc h p ++ [str!"/"] ∈ rootsOf h md c →
      V (implicitLoc h p) ∨ N (implicitLoc h p))
    (hW : c.changes = true → ∀ r ∈ rootsOf h md c, W r) (hWV : ∀ l, W l → V l) :
    (callProg env h md c).Uses h N V W := by
  have docs : ∀ q, OrdinaryPath h q → Plain (h.loc (arrayMetadataKey h.entry q)) ∧
      Plain (h.loc (groupMetadataKey h.entry q)) ∧ h.loc (arrayMetadataKey h.entry q) = docLoc h str!"array" q ∧
      h.loc (groupMetadataKey h.entry q) = docLoc h str!"group" q ∧
      Plain (h.loc (setExtension (setExtension (groupMetadataKey h.entry q) []) [])) ∧
      h.loc (setExtension (setExtension (groupMetadataKey h.entry q) []) []) = implicitLoc h q := by
    intro q hq
    have e : h.loc (setExtension (setExtension (groupMetadataKey h.entry q) []) []) = implicitLoc h q := by
      rw [Hier.loc, segs_implicitKey hsfx hdot hq.plain]; rfl
    refine ⟨?_, ?_, loc_arrayKey hsfx hq.plain, loc_groupKey hsfx hq.plain, ?_, e⟩
    · rw [loc_arrayKey hsfx hq.plain]; exact plain_docLoc hb hq.plain (by simp)
    · rw [loc_groupKey hsfx hq.plain]; exact plain_docLoc hb hq.plain (by simp)
    · rw [e]; exact hb.append (Plain.append (a := [str!"meta", str!"root"]) (by decide) hq.plain)
  have lift : ∀ {γ : Type} {P : Threads.Prog γ}, P.Uses h V W → (Prog.of P).Uses h N V W :=
    fun hp => uses_of hp (fun _ hl => hl) hWV
  cases c with
  | listNodes p =>
    have e : h.loc (metaRoot ++ '/' :: canonicalizePath p) = implicitLoc h p := by
      rw [Hier.loc, segs_append_sep, segs_canonicalizePath]; rfl
    refine uses_record (uses_bind (p := .listDir _ .done) ⟨?_, ?_, fun _ => trivial⟩ fun _ => trivial)
    · rw [e]; exact hb.append (Plain.append (a := [str!"meta", str!"root"]) (by decide) (OrdinaryPath.plain hok))
    · rw [e]; exact hV _ (by simp [rootsOf])
  | call c =>
    cases c with
    | readBox p t b =>
      refine uses_record (lift (Threads.uses_readNdarray (plain_loc_chunk hb hok.1.plain (hs _)) fun it hit pos hp => .inl ?_))
      exact hV _ (List.mem_map.mpr ⟨pos, mem_visited hit hp, rfl⟩)
    | writeBox p t o a =>
      refine uses_record (lift (Threads.uses_writeNdarray (plain_loc_chunk hb hok.1.plain (hs _)) fun it hit pos hp => ?_))
      exact hW rfl _ (List.mem_map.mpr ⟨pos, mem_visited hit hp, rfl⟩)
    | call c =>
      cases c with
      | remove p =>
        obtain ⟨h1, h2, h3, h4, _⟩ := docs p hok
        refine uses_record (uses_bind (p := .erase _ .done) ⟨h2, ?_, fun _ => trivial⟩ fun _ =>
          uses_bind (p := .erase _ .done) ⟨h1, ?_, fun _ => trivial⟩ fun _ =>
          uses_bind (p := .erasePrefix _ .done) ⟨?_, ?_, fun _ => trivial⟩ fun _ => trivial)
        · rw [h4]; exact hW rfl _ (by simp [rootsOf, docRoots])
        · rw [h3]; exact hW rfl _ (by simp [rootsOf, docRoots])
        · rw [loc_dataKey]; exact plain_dataLoc hb (OrdinaryPath.plain hok)
        · rw [loc_dataKey]; exact hW rfl _ (by simp [rootsOf])
      | nodeExists p =>
        obtain ⟨h1, h2, h3, h4, h5, h6⟩ := docs p hok
        have va : V (h.loc (arrayMetadataKey h.entry p)) := by rw [h3]; exact hV _ (by simp [rootsOf, docRoots])
        have vg : V (h.loc (groupMetadataKey h.entry p)) := by rw [h4]; exact hV _ (by simp [rootsOf, docRoots])
        have vi := hN p (by simp [rootsOf])
        rw [← h6] at vi
        refine uses_bind (uses_of_record ?_) fun _ => trivial
        refine uses_of_bind (p := Threads.pExists _) ⟨h1, .inl va, fun _ => trivial⟩ fun b => ?_
        cases b
        · refine uses_of_bind (p := Threads.pExists _) ⟨h2, .inl vg, fun _ => trivial⟩ fun b => ?_
          cases b
          · exact ⟨h5, vi, fun _ => trivial⟩
          · trivial
        · trivial
      | arrayExists p =>
        obtain ⟨h1, h2, h3, h4, h5, h6⟩ := docs p hok
        have va : V (h.loc (arrayMetadataKey h.entry p)) := by rw [h3]; exact hV _ (by simp [rootsOf, docRoots])
        have vg : V (h.loc (groupMetadataKey h.entry p)) := by rw [h4]; exact hV _ (by simp [rootsOf, docRoots])
        have vi := hN p (by simp [rootsOf])
        rw [← h6] at vi
        refine uses_bind (uses_of_record (uses_of_bind (p := Threads.nodeExists h p) ?_ fun b => ?_)) fun _ => trivial
        · refine uses_of_bind (p := Threads.pExists _) ⟨h1, .inl va, fun _ => trivial⟩ fun b => ?_
          cases b
          · refine uses_of_bind (p := Threads.pExists _) ⟨h2, .inl vg, fun _ => trivial⟩ fun b => ?_
            cases b
            · exact ⟨h5, vi, fun _ => trivial⟩
            · trivial
          · trivial
        · cases b
          · trivial
          · refine lift ((Threads.uses_getArrayMetadata h1 (.inl va)).record.bind fun r => ?_)
            cases r <;> trivial
      | createGroup p =>
        obtain ⟨h1, h2, h3, h4, _⟩ := docs p hok
        have wa : W (h.loc (arrayMetadataKey h.entry p)) := by rw [h3]; exact hW rfl _ (by simp [rootsOf, docRoots])
        have wg : W (h.loc (groupMetadataKey h.entry p)) := by rw [h4]; exact hW rfl _ (by simp [rootsOf, docRoots])
        exact uses_bind (lift (Threads.uses_createGroup h1 h2 (.inr wa) (.inr wg) wg).record) fun _ => trivial
      | createArray p m =>
        obtain ⟨h1, h2, h3, h4, _⟩ := docs p hok
        have wa : W (h.loc (arrayMetadataKey h.entry p)) := by rw [h3]; exact hW rfl _ (by simp [rootsOf, docRoots])
        have wg : W (h.loc (groupMetadataKey h.entry p)) := by rw [h4]; exact hW rfl _ (by simp [rootsOf, docRoots])
        exact uses_bind (lift (Threads.uses_createArray h1 h2 (.inr wa) (.inr wg) m wa).record) fun _ => trivial
      | setAttributes p b =>
        obtain ⟨h1, h2, h3, h4, _⟩ := docs p hok
        have wa : W (h.loc (arrayMetadataKey h.entry p)) := by rw [h3]; exact hW rfl _ (by simp [rootsOf, docRoots])
        have wg : W (h.loc (groupMetadataKey h.entry p)) := by rw [h4]; exact hW rfl _ (by simp [rootsOf, docRoots])
        exact uses_bind (lift (Threads.uses_setAttributes h1 h2 (.inr wa) (.inr wg) b wa wg).record) fun _ => trivial
      | getArrayMetadata p =>
        obtain ⟨h1, h2, h3, h4, _⟩ := docs p hok
        have va : V (h.loc (arrayMetadataKey h.entry p)) := by rw [h3]; exact hV _ (by simp [rootsOf, docRoots])
        exact uses_bind (lift (Threads.uses_getArrayMetadata h1 (.inl va)).record) fun _ => trivial
      | listAttributes p =>
        obtain ⟨h1, h2, h3, h4, _⟩ := docs p hok
        have va : V (h.loc (arrayMetadataKey h.entry p)) := by rw [h3]; exact hV _ (by simp [rootsOf, docRoots])
        have vg : V (h.loc (groupMetadataKey h.entry p)) := by rw [h4]; exact hV _ (by simp [rootsOf, docRoots])
        exact uses_bind (lift (Threads.uses_listAttributes h1 h2 (.inl va) (.inl vg)).record) fun _ => trivial
      | writeChunk p t c =>
        exact uses_bind (lift (Threads.Prog.Uses.record (Threads.uses_set (plain_loc_chunk hb hok.1.plain (hs _) _)
          (hW rfl _ (by simp [rootsOf]))))) fun _ => trivial
      | deleteChunk p pos =>
        exact uses_bind (lift (Threads.Prog.Uses.record (Threads.uses_erase (plain_loc_chunk hb hok.1.plain (hs _) _)
          (hW rfl _ (by simp [rootsOf]))))) fun _ => trivial
      | readChunk p t pos =>
        exact uses_bind (lift (Threads.Prog.Uses.record (Threads.uses_readChunk (plain_loc_chunk hb hok.1.plain (hs _) _)
          (.inl (hV _ (by simp [rootsOf])))))) fun _ => trivial

end

/-- The roots of a thread. -/
def threadRoots (h : Hier) (md : List Str → ArrayMetadata) (cs : List WCall) : List Loc := cs.flatMap (rootsOf h md)

/-- The roots of the calls of a thread that change something. -/
def threadWrites (h : Hier) (md : List Str → ArrayMetadata) (cs : List WCall) : List Loc :=
  (cs.filter WCall.changes).flatMap (rootsOf h md)

theorem threadWrites_sub {cs : List WCall} : ∀ r ∈ threadWrites h md cs, r ∈ threadRoots h md cs := by
  intro r hr
  obtain ⟨c, h1, h2⟩ := List.mem_flatMap.mp hr
  exact List.mem_flatMap.mpr ⟨c, (List.mem_filter.mp h1).1, h2⟩

theorem uses_thread {cs : List WCall} (hb : Plain (segs h.base)) (hsfx : GoodSuffix h.entry)
    (hdot : '.' ∉ stripDot h.entry.metadataKeySuffix) (hs : ∀ q, GoodSep (md q).separator)
    (hok : ∀ c ∈ cs, c.Fits h md) : (threadProg env h md cs).Uses h (Above (threadRoots h md cs))
      (Under (threadRoots h md cs)) (Under (threadWrites h md cs)) := by
  have key : ∀ cs' : List WCall, (∀ c ∈ cs', c ∈ cs) → (threadProg env h md cs').Uses h (Above (threadRoots h md cs))
      (Under (threadRoots h md cs)) (Under (threadWrites h md cs)) := by
    intro cs'
    induction cs' with
    | nil => intro _; trivial
    | cons c cs' ih =>
      intro hsub
      have hc := hsub c (by simp)
      refine uses_bind (uses_call hb hsfx hdot hs (hok c hc) ?_ ?_ ?_ fun l hl => hl.mono threadWrites_sub)
        fun _ => uses_bind (ih fun c hc => hsub c (by simp [hc])) fun _ => trivial
      · exact fun r hr => ⟨r, List.mem_flatMap.mpr ⟨c, hc, hr⟩, List.prefix_rfl⟩
      · intro p hp
        by_cases hu : Under (threadRoots h md cs) (implicitLoc h p)
        · exact .inl hu
        · exact .inr ⟨hu, _, List.mem_flatMap.mpr ⟨c, hc, hp⟩, List.prefix_append _ _⟩
      · exact fun hch r hr => ⟨r, List.mem_flatMap.mpr ⟨c, List.mem_filter.mpr ⟨hc, hch⟩, hr⟩, List.prefix_rfl⟩
  exact key cs fun _ hc => hc

theorem wResults_append (xs ys : List WCall) (fs : Fs) :
    wResults env h md (xs ++ ys) fs = wResults env h md xs fs ++ wResults env h md ys (wState env h md xs fs) := by
  induction xs generalizing fs with
  | nil => rfl
  | cons x xs ih => rw [List.cons_append, wResults, ih]; rfl

theorem wState_append (xs ys : List WCall) (fs : Fs) :
    wState env h md (xs ++ ys) fs = wState env h md ys (wState env h md xs fs) := by
  induction xs generalizing fs with
  | nil => rfl
  | cons x xs ih => exact ih _

theorem runAll_threads (css : List (List WCall)) (fs : Fs) :
    (runAll h (css.map (threadProg env h md)) fs).2 = wState env h md css.flatten fs ∧
    ∃ rs : List (List WResult), (runAll h (css.map (threadProg env h md)) fs).1 = rs.map .ok ∧
      rs.flatten = wResults env h md css.flatten fs := by
  induction css generalizing fs with
  | nil => exact ⟨rfl, [], rfl, rfl⟩
  | cons c css ih =>
    obtain ⟨h1, rs, h2, h3⟩ := ih (wState env h md c fs)
    simp only [List.map_cons, runAll, run_thread, List.flatten_cons, wState_append, wResults_append]
    exact ⟨h1, wResults env h md c fs :: rs, by rw [h2]; rfl, by rw [List.flatten_cons, h3]⟩

/-- **C93.** Several threads use one hierarchy at the same time, each making any calls one after the
other: all calls of C81 including `remove`, and `list_nodes`; their system calls are interleaved in any
way, also those of the recursive removal and of the listing. If no thread makes a call about something
that another thread changes, then every thread gets the results it gets alone; no thread waits for
another or runs forever; and when all have finished, the results and the files are those of the calls
made one thread after the other. -/
theorem C93 (env : Env) (h : Hier) (md : List Str → ArrayMetadata) (css : List (List WCall)) (fs : Fs) (hwf : fs.WF)
    (hnm : fs.Named) (hb : Plain (segs h.base)) (hsfx : GoodSuffix h.entry)
    (hdot : '.' ∉ stripDot h.entry.metadataKeySuffix) (hs : ∀ q, GoodSep (md q).separator)
    (hok : ∀ cs ∈ css, ∀ c ∈ cs, c.Fits h md ∧ c.Open h md fs)
    (hsep : ∀ (i j : Nat) cs cs', css[i]? = some cs → css[j]? = some cs' → i ≠ j → ∀ c ∈ cs, ∀ c' ∈ cs',
      c.changes = true → ∀ a b, c.Touches md a → c'.Touches md b → ¬ a.Meets b) :
    ∃ N, ∀ ts s, (Sys.initial fs (css.map (threadProg env h md))).run h ts = some s →
      ts.length ≤ N ∧ s.fs.WF ∧
      (∀ (i : Nat) cs, css[i]? = some cs → ∀ r, s.result i = some r → r = .ok (wResults env h md cs fs)) ∧
      (∀ i, i < css.length → s.result i = none → ∃ s', s.advance h i = some s') ∧
      ((∀ i, i < css.length → (s.result i).isSome) →
        wResults env h md css.flatten fs = (css.map fun cs => wResults env h md cs fs).flatten ∧
        ∀ l, s.fs.content l = (wState env h md css.flatten fs).content l) := by
  let rs : Nat → List Loc := fun i => threadRoots h md (css.getD i [])
  let ws : Nat → List Loc := fun i => threadWrites h md (css.getD i [])
  have hcs : ∀ i, i < css.length → css[i]? = some (css.getD i []) := by
    intro i hi
    rw [List.getElem?_eq_getElem hi, List.getD_eq_getElem?_getD, List.getElem?_eq_getElem hi]; rfl
  have hkind : ∀ i, i < css.length → ∀ r ∈ rs i, ∃ c ∈ css.getD i [], RootKind h md c r ∧ c.Open h md fs := by
    intro i hi r hr
    obtain ⟨c, h1, h2⟩ := List.mem_flatMap.mp hr
    have := hok _ (List.mem_of_getElem? (hcs i hi)) c h1
    exact ⟨c, h1, rootKind this.1 h2, this.2⟩
  have S : Separate h fs (css.map (threadProg env h md)) rs ws := by
    refine ⟨hwf, hnm, ?_, ?_, fun i _ => threadWrites_sub, ?_, ?_, ?_⟩
    · intro i hi r hr
      obtain ⟨c, _, h2, _⟩ := hkind i (by simpa using hi) r hr
      exact h2.ne_nil
    · intro i hi r hr
      obtain ⟨c, _, h2, _⟩ := hkind i (by simpa using hi) r hr
      exact h2.plain hb hs
    · intro i j hi hj hij w hw r hr
      simp only [List.length_map] at hi hj
      obtain ⟨c, h1, h2⟩ := List.mem_flatMap.mp hw
      obtain ⟨h1, hch⟩ := List.mem_filter.mp h1
      obtain ⟨c', h3, h4, _⟩ := hkind j hj r hr
      exact roots_apart hs (rootKind (hok _ (List.mem_of_getElem? (hcs i hi)) c h1).1 h2) h4 hch
        (hsep i j _ _ (hcs i hi) (hcs j hj) hij c h1 c' h3 hch)
    · rintro i hi l ⟨hu, r, hr, hl⟩ b
      obtain ⟨c, _, h2, h3⟩ := hkind i (by simpa using hi) r hr
      exact h2.open hs h3 hl (fun e => hu ⟨r, hr, e ▸ List.prefix_rfl⟩) b
    · intro i P hP
      rw [List.getElem?_map] at hP
      obtain ⟨cs, h1, rfl⟩ := Option.map_eq_some_iff.mp hP
      have e : css.getD i [] = cs := by rw [List.getD_eq_getElem?_getD, h1]; rfl
      show (threadProg env h md cs).Uses h (Above (threadRoots h md (css.getD i []))) (Under (threadRoots h md (css.getD i [])))
        (Under (threadWrites h md (css.getD i [])))
      rw [e]
      exact uses_thread hb hsfx hdot hs fun c hc => (hok cs (List.mem_of_getElem? h1) c hc).1
  obtain ⟨ms, I⟩ := Inv.init S
  refine ⟨ms.sum, fun ts s hrun => ?_⟩
  obtain ⟨ms', I', hle⟩ := I.run S ts hrun
  refine ⟨by omega, I'.wf, ?_, ?_, ?_⟩
  · intro i cs hi r hr
    have := (I'.result (P := threadProg env h md cs) (by rw [List.getElem?_map, hi]; rfl) hr).1
    rw [this, run_thread]
  · intro i hi hr
    exact I'.progress S (by simpa using hi) hr
  · intro hall
    obtain ⟨h1, h2⟩ := I'.serial S (by simpa using hall)
    obtain ⟨h3, rs', h4, h5⟩ := runAll_threads (env := env) (h := h) (md := md) css fs
    refine ⟨?_, fun l => by rw [h2 l, h3]⟩
    rw [← h5]
    congr 1
    apply List.ext_getElem?
    intro i
    rw [h4] at h1
    have hlen : rs'.length = css.length := by
      have := congrArg List.length h4
      have hl2 : ∀ (ps : List (Prog (List WResult))) (f : Fs), (runAll h ps f).1.length = ps.length := by
        intro ps
        induction ps with
        | nil => intro f; rfl
        | cons p ps ih => intro f; simp [runAll, ih]
      rw [hl2] at this
      simpa using this.symm
    by_cases hi : i < css.length
    · have := h1 i (threadProg env h md (css.getD i [])) (by rw [List.getElem?_map, hcs i hi]; rfl)
      rw [run_thread, List.getElem?_map] at this
      obtain ⟨x, hx, hx2⟩ := Option.map_eq_some_iff.mp this
      simp only [Outcome.ok.injEq] at hx2
      rw [hx, hx2, List.getElem?_map, hcs i hi]; rfl
    · rw [List.getElem?_eq_none (by omega), List.getElem?_eq_none (by simp; omega)]

end

/-! ### A concrete case -/

theorem lookup_mem {l : Loc} {n : Node} : ∀ {es : List (Loc × Node)}, Fs.lookup es l = some n → (l, n) ∈ es
  | [], h => by cases h
  | (k, m) :: r, h => by
    unfold Fs.lookup at h
    split at h
    · rename_i e; cases h; simp [e]
    · exact List.mem_cons_of_mem _ (lookup_mem h)

/-- A test for well-formed filesystems with ordinary names. -/
def wellFormed (fs : Fs) : Bool :=
  decide (fs.ents.map Prod.fst).Nodup && decide (fs.get [] = some .dir) &&
    fs.ents.all fun e => decide (Plain e.1) && (e.1.isEmpty || decide (fs.get e.1.dropLast = some .dir))

theorem wf_of_wellFormed {fs : Fs} (h : wellFormed fs = true) : fs.WF ∧ fs.Named := by
  simp only [wellFormed, Bool.and_eq_true, decide_eq_true_eq, List.all_eq_true, Bool.or_eq_true] at h
  obtain ⟨⟨h1, h2⟩, h3⟩ := h
  refine ⟨⟨h1, h2, fun l s n hg => ?_⟩, fun l n hg => (h3 _ (lookup_mem hg)).1⟩
  have := (h3 _ (lookup_mem hg)).2
  simpa using this

/-- No file is at the location or above it. -/
def openAt (fs : Fs) (l : Loc) : Bool :=
  (List.range (l.length + 1)).all fun i => match fs.get (l.take i) with | some (.file _) => false | _ => true

theorem openAt_spec {fs : Fs} {l q : Loc} (h : openAt fs l = true) (hq : q <+: l) (b : Bytes) : fs.get q ≠ some (.file b) := by
  intro e
  have := List.all_eq_true.mp h q.length (List.mem_range.mpr (Nat.lt_succ_of_le hq.length_le))
  rw [← List.prefix_iff_eq_take.mp hq, e] at this
  cases this

/-- An array with a chunk, a group with an implicit group in it. -/
def demoFs : Fs := wState Demo.envJ Demo.hier (fun _ => Demo.arr)
  [.call (.call (.createArray Demo.path Demo.arr)), .call (.call (.writeChunk Demo.path .u16 Demo.chunk)),
   .call (.call (.createGroup str!"/b")), .call (.call (.createGroup str!"/b/a/a"))] Demo.emptyFs

/-- One thread removes the array, one writes and reads a chunk of another array, one lists the nodes of the
group, one creates a group beside the array. -/
def demoCalls : List (List WCall) :=
  [[.call (.call (.remove Demo.path)), .call (.call (.nodeExists Demo.path))],
   [.call (.call (.writeChunk str!"/b/b" .u16 Demo.chunk)), .call (.call (.readChunk str!"/b/b" .u16 [1]))],
   [.listNodes str!"/b"],
   [.call (.call (.createGroup str!"/a/a")), .call (.call (.nodeExists str!"/a"))]]

theorem demoFs_wf : demoFs.WF ∧ demoFs.Named := wf_of_wellFormed (by decide +kernel)

theorem demoCalls_fits : ∀ cs ∈ demoCalls, ∀ c ∈ cs, c.Fits Demo.hier fun _ => Demo.arr := by
  have hp : ∀ {p : Str}, (segs p).all (fun s => decide (s = str!"a" ∨ s = str!"b")) = true → OrdinaryPath Demo.hier p :=
    Demo.ordinaryPath
  simp only [demoCalls, List.forall_mem_cons, WCall.Fits, HCall.Fits, List.not_mem_nil, false_imp_iff, implies_true,
    and_true]
  exact ⟨⟨hp (by decide), hp (by decide)⟩, ⟨⟨hp (by decide), rfl⟩, hp (by decide), rfl⟩, hp (by decide), hp (by decide),
    hp (by decide)⟩

theorem demoCalls_open : ∀ cs ∈ demoCalls, ∀ c ∈ cs, c.Open Demo.hier (fun _ => Demo.arr) demoFs := by
  have hp : ∀ {p : Str}, (openAt demoFs (implicitLoc Demo.hier p) && openAt demoFs (dataLoc Demo.hier p)) = true →
      ∀ q, q <+: implicitLoc Demo.hier p ∨ q <+: dataLoc Demo.hier p → ∀ b, demoFs.get q ≠ some (.file b) := by
    intro p h q hq b
    rw [Bool.and_eq_true] at h
    exact hq.elim (fun hq => openAt_spec h.1 hq b) fun hq => openAt_spec h.2 hq b
  have hc : ∀ q, q <+: chunkLoc Demo.hier str!"/b/b" str!"/" [1] → ∀ b, demoFs.get q ≠ some (.file b) := by
    intro q hq b
    exact openAt_spec (l := chunkLoc Demo.hier str!"/b/b" str!"/" [1]) (by decide +kernel) hq b
  simp only [demoCalls, List.forall_mem_cons, List.not_mem_nil, false_imp_iff, implies_true, and_true]
  refine ⟨⟨⟨hp (by decide +kernel), ?_⟩, hp (by decide +kernel), ?_⟩, ⟨⟨hp (by decide +kernel), ?_⟩, hp (by decide +kernel), ?_⟩,
    ⟨hp (by decide +kernel), ?_⟩, ⟨hp (by decide +kernel), ?_⟩, hp (by decide +kernel), ?_⟩ <;> intro pos ht
  · simp [WCall.Touches] at ht
  · simp [WCall.Touches] at ht
  · simp [WCall.Touches] at ht; obtain ⟨_, rfl⟩ := ht; exact fun q hq _ b => hc q hq b
  · simp [WCall.Touches] at ht; obtain ⟨_, rfl⟩ := ht; exact fun q hq _ b => hc q hq b
  · simp [WCall.Touches] at ht
  · simp [WCall.Touches] at ht
  · simp [WCall.Touches] at ht

theorem demoCalls_sep : ∀ (i j : Nat) cs cs', demoCalls[i]? = some cs → demoCalls[j]? = some cs' → i ≠ j →
    ∀ c ∈ cs, ∀ c' ∈ cs', c.changes = true → ∀ a b, c.Touches (fun _ => Demo.arr) a → c'.Touches (fun _ => Demo.arr) b →
      ¬ a.Meets b := by
  intro i j cs cs' hi hj hij c hc c' hc' hch a b ha hb
  obtain ⟨hi', rfl⟩ := List.getElem?_eq_some_iff.mp hi
  obtain ⟨hj', rfl⟩ := List.getElem?_eq_some_iff.mp hj
  have hl : demoCalls.length = 4 := rfl
  rw [hl] at hi' hj'
  have : ∀ k < 4, k = 0 ∨ k = 1 ∨ k = 2 ∨ k = 3 := by omega
  rcases this i hi' with rfl | rfl | rfl | rfl <;> rcases this j hj' with rfl | rfl | rfl | rfl <;>
    first
    | exact absurd rfl hij
    | (simp [demoCalls] at hc hc'
       rcases hc with rfl | rfl <;> first | cases hch | skip
       all_goals
        rcases hc' with rfl | rfl
        all_goals
          simp [WCall.Touches] at ha hb
          first
          | (subst ha hb; simp [Area.Meets]; try decide)
          | (rcases ha with rfl | rfl <;> subst hb <;> simp [Area.Meets] <;> try decide)
          | (rcases hb with rfl | rfl <;> subst ha <;> simp [Area.Meets] <;> try decide))
    | skip

/-- They meet the hypotheses of C93, and these are their results, whatever the schedule. -/
example : ∃ N, ∀ ts s, (Sys.initial demoFs (demoCalls.map (threadProg Demo.envJ Demo.hier fun _ => Demo.arr))).run
      Demo.hier ts = some s → ts.length ≤ N ∧
    (∀ r, s.result 0 = some r → r = .ok [.plain (.plain (.unit (.ok ()))), .plain (.plain (.bool (.ok false)))]) ∧
    (∀ r, s.result 1 = some r → r = .ok [.plain (.plain (.unit (.ok ()))),
      .plain (.plain (.data (.ok (some ⟨.u16, Demo.chunk.data⟩))))]) ∧
    (∀ r, s.result 2 = some r → r = .ok [.names (.ok [str!"a"])]) ∧
    ((∀ i, i < 4 → (s.result i).isSome) →
      s.fs.content (chunkLoc Demo.hier Demo.path str!"/" [1]) = none ∧
      (s.fs.content (chunkLoc Demo.hier str!"/b/b" str!"/" [1])).isSome) := by
  obtain ⟨N, hN⟩ := C93 Demo.envJ Demo.hier (fun _ => Demo.arr) demoCalls demoFs demoFs_wf.1 demoFs_wf.2 (by decide)
    (by unfold GoodSuffix; decide) (by decide) (fun _ => .inl rfl)
    (fun cs h1 c h2 => ⟨demoCalls_fits cs h1 c h2, demoCalls_open cs h1 c h2⟩) demoCalls_sep
  refine ⟨N, fun ts s hrun => ?_⟩
  obtain ⟨h1, _, h3, _, h5⟩ := hN ts s hrun
  refine ⟨h1, fun r hr => h3 0 _ rfl r hr, fun r hr => h3 1 _ rfl r hr, fun r hr => h3 2 _ rfl r hr, fun hall => ?_⟩
  rw [(h5 hall).2, (h5 hall).2]
  decide +kernel

/-! ### Violations -/

/-- What a thread that made one call got. -/
def unitOf : Option (Outcome (List WResult)) → Option (Outcome Unit)
  | some (.ok [.plain (.plain (.unit r))]) => some r
  | _ => none

theorem unitOf_eq {x : Option (Outcome (List WResult))} {r : Outcome Unit} (h : unitOf x = some r) :
    x = some (.ok [.plain (.plain (.unit r))]) := by
  unfold unitOf at h
  split at h
  · cases h; rfl
  · cases h

/-- The results of two calls made one after the other. -/
def unitsOf : List WResult → Option (Outcome Unit × Outcome Unit)
  | [.plain (.plain (.unit a)), .plain (.plain (.unit b))] => some (a, b)
  | _ => none

theorem run_of_test {α : Type} {s₀ : Sys α} {h : Hier} {ts : List Nat} {f : Sys α → Bool}
    (ht : ((s₀.run h ts).map f) = some true) : ∃ s, s₀.run h ts = some s ∧ f s = true := by
  cases hr : s₀.run h ts with
  | none => rw [hr] at ht; cases ht
  | some s => rw [hr] at ht; exact ⟨s, rfl, Option.some.inj ht⟩

/-- The threads of the violations. -/
def demoRace (c d : HCall) : List (Prog (List WResult)) :=
  [[WCall.call (.call c)], [.call (.call d)]].map (threadProg Demo.envJ Demo.hier fun _ => Demo.arr)

/-- The calls one after the other. -/
def serially (c d : HCall) : Option (Outcome Unit × Outcome Unit) :=
  unitsOf (wResults Demo.envJ Demo.hier (fun _ => Demo.arr) [.call (.call c), .call (.call d)] demoFs)

/-- The chunk of the violations, which does not exist before. -/
def demoChunk : HCall := .writeChunk Demo.path .u16 ⟨[0], Demo.chunk.data⟩

set_option maxRecDepth 20000 in
theorem remove_write_runs : ((Sys.initial demoFs (demoRace (.remove Demo.path) demoChunk)).run Demo.hier
      (List.replicate 10 0 ++ List.replicate 9 1 ++ List.replicate 4 0)).map (fun s =>
    decide (unitOf (s.result 0) = some (.err .other)) && decide (unitOf (s.result 1) = some (.ok ())) &&
    (s.fs.content (chunkLoc Demo.hier Demo.path str!"/" [0])).isSome &&
    (s.fs.content (chunkLoc Demo.hier Demo.path str!"/" [1])).isNone) = some true := by decide +kernel

set_option maxRecDepth 20000 in
theorem write_remove_runs : ((Sys.initial demoFs (demoRace (.remove Demo.path) demoChunk)).run Demo.hier
      (1 :: List.replicate 15 0 ++ [1])).map (fun s =>
    decide (unitOf (s.result 0) = some (.ok ())) && decide (unitOf (s.result 1) = some (.err .notFound))) =
      some true := by decide +kernel

set_option maxRecDepth 20000 in
theorem remove_remove_runs : ((Sys.initial demoFs (demoRace (.remove Demo.path) (.remove Demo.path))).run Demo.hier
      (List.replicate 8 1 ++ List.replicate 12 0 ++ [1])).map (fun s =>
    decide (unitOf (s.result 0) = some (.ok ())) && decide (unitOf (s.result 1) = some (.err .notFound))) =
      some true := by decide +kernel

set_option maxRecDepth 20000 in
theorem remove_serially : serially (.remove Demo.path) demoChunk = some (.ok (), .ok ()) ∧
    serially demoChunk (.remove Demo.path) = some (.ok (), .ok ()) ∧
    serially (.remove Demo.path) (.remove Demo.path) = some (.ok (), .ok ()) := by decide +kernel

/-- **C77 (violated by removal).** One thread removes an array, another writes a chunk of it. In either
order both calls succeed; at the same time, (1) `remove` can fail because a directory is not empty,
after it has deleted other chunks, and the written chunk stays; or (2) `write_chunk` can fail because
the directory it has just made is gone. (3) Of two threads that remove the same array one can fail, although
in either order both succeed. -/
theorem C77_violated_removal :
    (∃ ts s, (Sys.initial demoFs (demoRace (.remove Demo.path) demoChunk)).run Demo.hier ts = some s ∧
      s.result 0 = some (.ok [.plain (.plain (.unit (.err .other)))]) ∧
      s.result 1 = some (.ok [.plain (.plain (.unit (.ok ())))]) ∧
      (s.fs.content (chunkLoc Demo.hier Demo.path str!"/" [0])).isSome ∧
      s.fs.content (chunkLoc Demo.hier Demo.path str!"/" [1]) = none) ∧
    (∃ ts s, (Sys.initial demoFs (demoRace (.remove Demo.path) demoChunk)).run Demo.hier ts = some s ∧
      s.result 0 = some (.ok [.plain (.plain (.unit (.ok ())))]) ∧
      s.result 1 = some (.ok [.plain (.plain (.unit (.err .notFound)))])) ∧
    (∃ ts s, (Sys.initial demoFs (demoRace (.remove Demo.path) (.remove Demo.path))).run Demo.hier ts = some s ∧
      s.result 0 = some (.ok [.plain (.plain (.unit (.ok ())))]) ∧
      s.result 1 = some (.ok [.plain (.plain (.unit (.err .notFound)))])) ∧
    serially (.remove Demo.path) demoChunk = some (.ok (), .ok ()) ∧
    serially demoChunk (.remove Demo.path) = some (.ok (), .ok ()) ∧
    serially (.remove Demo.path) (.remove Demo.path) = some (.ok (), .ok ()) := by
  refine ⟨?_, ?_, ?_, remove_serially⟩
  · obtain ⟨s, h1, h2⟩ := run_of_test remove_write_runs
    simp only [Bool.and_eq_true, decide_eq_true_eq] at h2
    exact ⟨_, s, h1, unitOf_eq h2.1.1.1, unitOf_eq h2.1.1.2, h2.1.2, Option.isNone_iff_eq_none.mp h2.2⟩
  · obtain ⟨s, h1, h2⟩ := run_of_test write_remove_runs
    simp only [Bool.and_eq_true, decide_eq_true_eq] at h2
    exact ⟨_, s, h1, unitOf_eq h2.1, unitOf_eq h2.2⟩
  · obtain ⟨s, h1, h2⟩ := run_of_test remove_remove_runs
    simp only [Bool.and_eq_true, decide_eq_true_eq] at h2
    exact ⟨_, s, h1, unitOf_eq h2.1, unitOf_eq h2.2⟩

end Wide

end Zarr
