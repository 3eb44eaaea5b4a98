import Verif.Props.Shared
import Verif.Props.ThreadRemove
/-!
# Machines and builds that use a hierarchy at the same time: C107
-/

namespace Zarr

open Spec

/-! ## The specification -/

/-- The filesystem after calls each of which may be made by another program. -/
def Spec.mState (h : Hier) (md : List Str → ArrayMetadata) : List (Env × BCall) → Fs → Fs
  | [], fs => fs
  | (env, c) :: cs, fs => mState h md cs (c.run env h md fs).2

/-- The map after a history of calls. -/
def Spec.bAbsState (md : List Str → ArrayMetadata) (fill : List Str → (t : RsType) → El t) :
    List BCall → AbsHier → AbsHier
  | [], a => a
  | c :: cs, a => bAbsState md fill cs (c.abs md fill a).2

/-- The calls of programs, one program after the other. -/
def Spec.inTurn (css : List (Env × List BCall)) : List (Env × BCall) := css.flatMap fun x => x.2.map fun c => (x.1, c)

/-- What the programs of a family find in a filesystem: each of them finds the map, and the chunks were written by one
of them. -/
structure Spec.Shared (fam : Env → Prop) (h : Hier) (md : List Str → ArrayMetadata) (a : AbsHier) (fs : Fs) : Prop where
  wf : fs.WF
  clear : Clear h md fs
  holds : ∀ env, fam env → Holds env h md a fs
  written : Written h fam md fs
  known : ∀ q m ats, a.node q = some (.array m ats) → ∀ env, fam env → m.compressor.enabled env.features = true

/-- The calls of programs that work at the same time: each is a call of the program, and no program makes a call about
something that another one changes. -/
structure Spec.AtOnce (fam : Env → Prop) (h : Hier) (md : List Str → ArrayMetadata)
    (fill : List Str → (t : RsType) → El t) (css : List (Env × List BCall)) : Prop where
  ok : ∀ x ∈ css, ∀ c ∈ x.2, fam x.1 ∧ c.Ok x.1 h md fill ∧ c.Known fam
  sep : ∀ (i j : Nat) x x', css[i]? = some x → css[j]? = some x' → i ≠ j → ∀ c ∈ x.2, ∀ c' ∈ x'.2,
    (WCall.call c).changes = true → ∀ a b, (WCall.call c).Touches md a → (WCall.call c').Touches md b → ¬ a.Meets b

/-- Rounds of programs that work at the same time, a round beginning when all programs of the one before have finished:
the filesystem, the programs and their results in each round, and the filesystem at the end. -/
inductive Spec.Rounds (h : Hier) (md : List Str → ArrayMetadata) :
    Fs → List (List (Env × List BCall)) → List (List (Outcome (List WResult))) → Fs → Prop
  | nil {fs} : Rounds h md fs [] [] fs
  | cons {fs fs' css rest rs rss ts s} :
      (Wide.Sys.initial fs (css.map fun x => Wide.threadProg x.1 h md (x.2.map .call))).run h ts = some s →
      rs.length = css.length → (∀ (i : Nat) r, rs[i]? = some r → s.result i = some r) →
      Rounds h md s.fs rest rss fs' → Rounds h md fs (css :: rest) (rs :: rss) fs'

/-- The results of rounds on the map. -/
def Spec.roundResults (md : List Str → ArrayMetadata) (fill : List Str → (t : RsType) → El t) :
    List (List (Env × List BCall)) → AbsHier → List (List (Outcome (List WResult)))
  | [], _ => []
  | css :: rest, a => (css.map fun x => .ok ((bAbsResults md fill x.2 a).map .plain)) ::
      roundResults md fill rest (bAbsState md fill (css.flatMap (·.2)) a)

section
variable {fam : Env → Prop} {h : Hier} {md : List Str → ArrayMetadata} {fill : List Str → (t : RsType) → El t}

theorem mState_append (xs ys : List (Env × BCall)) (fs : Fs) :
    mState h md (xs ++ ys) fs = mState h md ys (mState h md xs fs) := by
  induction xs generalizing fs with
  | nil => rfl
  | cons x xs ih => exact ih _

theorem mResults_append (xs ys : List (Env × BCall)) (fs : Fs) :
    mResults h md (xs ++ ys) fs = mResults h md xs fs ++ mResults h md ys (mState h md xs fs) := by
  induction xs generalizing fs with
  | nil => rfl
  | cons x xs ih => rw [List.cons_append, mResults, ih]; rfl

theorem bAbsState_append (xs ys : List BCall) (a : AbsHier) :
    bAbsState md fill (xs ++ ys) a = bAbsState md fill ys (bAbsState md fill xs a) := by
  induction xs generalizing a with
  | nil => rfl
  | cons x xs ih => exact ih _

theorem Spec.Shared.fresh {fs : Fs} (hb : Plain (segs h.base)) (hs : ∀ q, GoodSep (md q).separator) (hwf : fs.WF)
    (hf : FreshDir h fs) : Shared fam h md AbsHier.empty fs where
  wf := hwf
  clear := Clear.fresh hf
  holds := fun _ _ => .fresh hb hs hwf hf
  written := by
    intro p pos hp b hc
    have : fs.get (h.loc (chunkKey p (md (segs p)) pos)) = none := by
      rw [Hier.loc, segs_chunkKey]
      exact hf.1 _ _ rfl (by simp) (by simp)
    rw [Fs.content, this] at hc
    simp at hc
  known := by simp [AbsHier.empty]

/-- One call. -/
theorem Spec.Shared.step (hT : Together md fam) (hb : Plain (segs h.base))
    (hsfx : GoodSuffix h.entry) (hdot : '.' ∉ stripDot h.entry.metadataKeySuffix)
    (hs : ∀ q, GoodSep (md q).separator) {a : AbsHier} {fs : Fs} (hh : Shared fam h md a fs) {env : Env} {c : BCall}
    (hok : fam env ∧ c.Ok env h md fill ∧ c.Known fam) :
    (c.run env h md fs).1 = (c.abs md fill a).1 ∧ Shared fam h md (c.abs md fill a).2 (c.run env h md fs).2 := by
  obtain ⟨he, hc, hk⟩ := hok
  obtain ⟨h1, h2⟩ := bStep (hT.lawful env he) hb hsfx hdot hs (hh.holds env he) c hc
  have hw' := bCall_keeps he (hT.lawful env he) hb hsfx hdot hs (hh.holds env he) c hc hh.written
  have hn' := known_step (md := md) (fill := fill) hk hh.known
  exact ⟨h1, h2.wf, h2.clear,
    fun env' he' => h2.other hT he he' hb hs hw' fun q m ats e => hn' q m ats e env' he', hw', hn'⟩

/-- A history of calls. -/
theorem Spec.Shared.history (hT : Together md fam) (hb : Plain (segs h.base))
    (hsfx : GoodSuffix h.entry) (hdot : '.' ∉ stripDot h.entry.metadataKeySuffix)
    (hs : ∀ q, GoodSep (md q).separator) {a : AbsHier} {fs : Fs} (hh : Shared fam h md a fs) (calls : List (Env × BCall))
    (hok : ∀ x ∈ calls, fam x.1 ∧ x.2.Ok x.1 h md fill ∧ x.2.Known fam) :
    mResults h md calls fs = bAbsResults md fill (calls.map (·.2)) a ∧
    Shared fam h md (bAbsState md fill (calls.map (·.2)) a) (mState h md calls fs) := by
  induction calls generalizing a fs with
  | nil => exact ⟨rfl, hh⟩
  | cons x xs ih =>
    obtain ⟨env, c⟩ := x
    obtain ⟨h1, h2⟩ := hh.step hT hb hsfx hdot hs (hok (env, c) (List.mem_cons_self ..))
    obtain ⟨h3, h4⟩ := ih h2 fun x hx => hok x (List.mem_cons_of_mem _ hx)
    exact ⟨by rw [mResults, List.map_cons, bAbsResults, h1, h3], h4⟩

/-- The same files show the same. -/
theorem Spec.Shared.congr {a : AbsHier} {fs fs' : Fs} (hb : Plain (segs h.base)) (hs : ∀ q, GoodSep (md q).separator)
    (hh : Shared fam h md a fs) (hwf : fs'.WF) (hc : Clear h md fs') (he : ∀ l, fs'.content l = fs.content l) :
    Shared fam h md a fs' where
  wf := hwf
  clear := hc
  holds := fun env h1 => Threads.Holds.congr hb hs (hh.holds env h1) hwf hc he
  written := fun p pos hp b h1 => hh.written p pos hp b (by rw [← he]; exact h1)
  known := hh.known

theorem Spec.BCall.Ok.fits {env : Env} {c : BCall} (hc : c.Ok env h md fill) : (WCall.call c).Fits h md := by
  cases c with
  | call c => exact HCall.Ok.fits hc
  | readBox p t b => exact ⟨hc.1, hc.2.dims, hc.2.some, hc.2.pos, hc.2.meets⟩
  | writeBox p t o a => exact ⟨hc.1, hc.2.1.dims, hc.2.1.some, hc.2.1.pos, hc.2.1.meets⟩

namespace Wide

/-- A program on a machine that makes calls one after the other. -/
def machineProg (h : Hier) (md : List Str → ArrayMetadata) (x : Env × List BCall) : Prog (List WResult) :=
  threadProg x.1 h md (x.2.map .call)

theorem run_machine (x : Env × List BCall) (fs : Fs) :
    (machineProg h md x).run h fs =
      (.ok ((mResults h md (x.2.map fun c => (x.1, c)) fs).map .plain), mState h md (x.2.map fun c => (x.1, c)) fs) := by
  rw [machineProg, run_thread]
  obtain ⟨env, cs⟩ := x
  dsimp only
  induction cs generalizing fs with
  | nil => rfl
  | cons c cs ih =>
    have := ih (c.run env h md fs).2
    simp only [Prod.mk.injEq, Outcome.ok.injEq] at this
    simp only [List.map_cons, wResults, wState, WCall.run, mResults, mState, this.1, this.2]

theorem touches_length {c : WCall} (hf : c.Fits h md) {pos : List Nat} (ht : c.Touches md (.chunk (segs c.path) pos)) :
    pos.length = (md (segs c.path)).shape.length := by
  have hbox : ∀ {p : Str} {b : BBox}, BoxMeetsChunks (md (segs p)) b →
      (∃ pos', OverlapsBoth (md (segs p)) b pos' ∧ Area.chunk (segs p) pos = .chunk (segs p) pos') →
      pos.length = (md (segs p)).shape.length := by
    rintro p b hm ⟨pos', ⟨q, h1, _, h3⟩, e⟩
    simp only [Area.chunk.injEq, true_and] at e
    subst e
    have := Covers.length h3
    have := Inside.length h1
    have := hm.dims
    omega
  match c with
  | .listNodes p => cases ht
  | .call (.readBox p t b) => exact hbox hf.2 ht
  | .call (.writeBox p t o a) => exact hbox hf.2 ht
  | .call (.call (.writeChunk p t c)) =>
    simp only [WCall.Touches, WCall.path, Area.chunk.injEq] at ht
    rw [ht.2]; exact hf.2
  | .call (.call (.readChunk p t pos')) =>
    simp only [WCall.Touches, WCall.path, Area.chunk.injEq] at ht
    rw [ht.2]; exact hf.2
  | .call (.call (.deleteChunk p pos')) =>
    simp only [WCall.Touches, WCall.path, Area.chunk.injEq] at ht
    rw [ht.2]; exact hf.2
  | .call (.call (.remove p)) => rcases ht with ht | ht <;> cases ht
  | .call (.call (.createGroup p)) => cases ht
  | .call (.call (.createArray p m)) => cases ht
  | .call (.call (.setAttributes p b)) => cases ht
  | .call (.call (.nodeExists p)) => cases ht
  | .call (.call (.arrayExists p)) => cases ht
  | .call (.call (.getArrayMetadata p)) => cases ht
  | .call (.call (.listAttributes p)) => cases ht

theorem fits_path {c : WCall} (hf : c.Fits h md) : OrdinaryPath h c.path := by
  match c with
  | .listNodes p => exact hf
  | .call (.readBox p t b) => exact hf.1
  | .call (.writeBox p t o a) => exact hf.1
  | .call (.call (.writeChunk p t c)) => exact hf.1
  | .call (.call (.readChunk p t pos')) => exact hf.1
  | .call (.call (.deleteChunk p pos')) => exact hf.1
  | .call (.call (.remove p)) => exact hf
  | .call (.call (.createGroup p)) => exact hf
  | .call (.call (.createArray p m)) => exact hf
  | .call (.call (.setAttributes p b)) => exact hf
  | .call (.call (.nodeExists p)) => exact hf
  | .call (.call (.arrayExists p)) => exact hf
  | .call (.call (.getArrayMetadata p)) => exact hf
  | .call (.call (.listAttributes p)) => exact hf

/-- Where nothing stands in the way of any file, nothing stands in the way of a call. -/
theorem open_of_clear (hs : ∀ q, GoodSep (md q).separator) {fs : Fs} (hc : Clear h md fs) {c : WCall} (hf : c.Fits h md) :
    c.Open h md fs := by
  have hp := fits_path hf
  refine ⟨?_, ?_⟩
  · rintro q (hq | hq) b
    · obtain ⟨q', h1, h2⟩ := ordinary_child hp
      obtain ⟨i, a, e1, e2⟩ := meta_doc_split h str!"array" q'
      have hlt : implicitLoc h c.path <+: docLoc h str!"array" q' ∧ implicitLoc h c.path ≠ docLoc h str!"array" q' := by
        have e3 : implicitLoc h q' = implicitLoc h c.path ++ [str!"x"] := by simp [implicitLoc, h2]
        have e4 : segs h.base ++ i = implicitLoc h c.path := by
          rw [e3, ← List.append_assoc] at e1
          exact (List.append_inj_left' e1 rfl).symm
        rw [e2, ← List.append_assoc, e4]
        exact ⟨List.prefix_append _ _, fun e => by simpa using congrArg List.length e⟩
      refine (hc _ (.array q' h1)).1 q (hq.trans hlt.1) ?_ b
      rintro rfl
      exact hlt.2 (hlt.1.eq_of_length_le hq.length_le)
    · have hl := FileLoc.chunk (md := md) c.path (List.replicate (md (segs c.path)).shape.length 0) hp (by simp)
      have hd : dataLoc h c.path <+: h.loc (chunkKey c.path (md (segs c.path))
          (List.replicate (md (segs c.path)).shape.length 0)) := dataLoc_prefix_chunk.mpr (List.prefix_append _ _)
      refine (hc _ hl).1 q (hq.trans hd) ?_ b
      rintro rfl
      exact (chunk_data hs hp).1 hq
  · intro pos ht q hq hne b
    have e := loc_chunkKey (h := h) (path := c.path) (m := md (segs c.path)) (pos := pos) ((hs _).imp id (·.2))
    rw [← e] at hq hne
    exact (hc _ (.chunk c.path pos hp (touches_length hf ht))).1 q hq hne b

/-- The programs use separate parts of the filesystem. -/
theorem separate {css : List (Env × List BCall)} {fs : Fs} (hwf : fs.WF) (hnm : fs.Named) (hc : Clear h md fs)
    (hb : Plain (segs h.base)) (hsfx : GoodSuffix h.entry)
    (hdot : '.' ∉ stripDot h.entry.metadataKeySuffix) (hs : ∀ q, GoodSep (md q).separator)
    (hok : ∀ x ∈ css, ∀ c ∈ x.2, (WCall.call c).Fits h md)
    (hsep : ∀ (i j : Nat) x x', css[i]? = some x → css[j]? = some x' → i ≠ j → ∀ c ∈ x.2, ∀ c' ∈ x'.2,
      (WCall.call c).changes = true → ∀ a b, (WCall.call c).Touches md a → (WCall.call c').Touches md b → ¬ a.Meets b) :
    let calls : Nat → List WCall := fun i => ((css[i]?.map (·.2)).getD []).map .call
    Separate h fs (css.map (machineProg h md)) (fun i => threadRoots h md (calls i)) (fun i => threadWrites h md (calls i)) := by
  intro calls
  have hcs : ∀ i, i < css.length → ∃ x, css[i]? = some x ∧ calls i = x.2.map .call := by
    intro i hi
    exact ⟨css[i], List.getElem?_eq_getElem hi, by simp [calls, List.getElem?_eq_getElem hi]⟩
  have hfit : ∀ i, i < css.length → ∀ c ∈ calls i, c.Fits h md := by
    intro i hi c hc
    obtain ⟨x, h1, h2⟩ := hcs i hi
    rw [h2] at hc
    obtain ⟨c', h3, rfl⟩ := List.mem_map.mp hc
    exact hok x (List.mem_of_getElem? h1) c' h3
  have hkind : ∀ i, i < css.length → ∀ r ∈ threadRoots h md (calls i), ∃ c ∈ calls i, RootKind h md c r ∧ c.Open h md fs := by
    intro i hi r hr
    obtain ⟨c, h1, h2⟩ := List.mem_flatMap.mp hr
    exact ⟨c, h1, rootKind (hfit i hi c h1) h2, open_of_clear hs hc (hfit i hi c h1)⟩
  refine ⟨hwf, hnm, ?_, ?_, fun i _ => threadWrites_sub, ?_, ?_, ?_⟩
  · intro i hi r hr
    obtain ⟨c, _, h2, _⟩ := hkind i (by simpa using hi) r hr
    exact h2.ne_nil
  · intro i hi r hr
    obtain ⟨c, _, h2, _⟩ := hkind i (by simpa using hi) r hr
    exact h2.plain hb hs
  · intro i j hi hj hij w hw r hr
    simp only [List.length_map] at hi hj
    obtain ⟨c, h1, h2⟩ := List.mem_flatMap.mp hw
    obtain ⟨h1, hch⟩ := List.mem_filter.mp h1
    obtain ⟨c', h3, h4, _⟩ := hkind j hj r hr
    refine roots_apart hs (rootKind (hfit i hi c h1) h2) h4 hch ?_
    obtain ⟨x, e1, e2⟩ := hcs i hi
    obtain ⟨x', e1', e2'⟩ := hcs j hj
    rw [e2] at h1
    rw [e2'] at h3
    obtain ⟨d, k1, rfl⟩ := List.mem_map.mp h1
    obtain ⟨d', k2, rfl⟩ := List.mem_map.mp h3
    exact hsep i j x x' e1 e1' hij d k1 d' k2 hch
  · rintro i hi l ⟨hu, r, hr, hl⟩ b
    obtain ⟨c, _, h2, h3⟩ := hkind i (by simpa using hi) r hr
    exact h2.open hs h3 hl (fun e => hu ⟨r, hr, e ▸ List.prefix_rfl⟩) b
  · intro i P hP
    rw [List.getElem?_map] at hP
    obtain ⟨x, h1, rfl⟩ := Option.map_eq_some_iff.mp hP
    have hi : i < css.length := (List.getElem?_eq_some_iff.mp h1).1
    have e : calls i = x.2.map .call := by simp [calls, h1]
    rw [e, machineProg]
    exact uses_thread hb hsfx hdot hs fun c hc => hfit i hi c (by rw [e]; exact hc)

theorem runAll_machines (css : List (Env × List BCall)) (fs : Fs) :
    (runAll h (css.map (machineProg h md)) fs).2 = mState h md (inTurn css) fs := by
  induction css generalizing fs with
  | nil => rfl
  | cons x css ih =>
    simp only [List.map_cons, runAll, run_machine, inTurn, List.flatMap_cons, mState_append]
    exact ih _

/-- The names of files stay ordinary. -/
theorem named_step {env : Env} {c : BCall} {fs : Fs} (hwf : fs.WF) (hnm : fs.Named) (hc : Clear h md fs)
    (hb : Plain (segs h.base)) (hsfx : GoodSuffix h.entry)
    (hdot : '.' ∉ stripDot h.entry.metadataKeySuffix) (hs : ∀ q, GoodSep (md q).separator)
    (hf : (WCall.call c).Fits h md) : (c.run env h md fs).2.Named := by
  have S := separate (css := [(env, [c])]) hwf hnm hc hb hsfx hdot hs (by simpa using hf) (by
    intro i j x x' hi hj hij
    have h1 := (List.getElem?_eq_some_iff.mp hi).1
    have h2 := (List.getElem?_eq_some_iff.mp hj).1
    simp only [List.length_singleton] at h1 h2
    omega)
  obtain ⟨ms0, I0⟩ := Inv.init S
  obtain ⟨ts, hts⟩ := Wide.serial S
  obtain ⟨ms1, I1, _⟩ := I0.run S ts hts
  have := I1.named
  rw [runAll_machines] at this
  exact this

/-- What holds before and after programs work at the same time. -/
structure Keeps (fam : Env → Prop) (h : Hier) (md : List Str → ArrayMetadata) (a : AbsHier) (fs : Fs) : Prop where
  shared : Shared fam h md a fs
  named : fs.Named

theorem sound_history (hT : Together md fam) (hb : Plain (segs h.base))
    (hsfx : GoodSuffix h.entry) (hdot : '.' ∉ stripDot h.entry.metadataKeySuffix)
    (hs : ∀ q, GoodSep (md q).separator) {a : AbsHier} {fs : Fs} (hh : Keeps fam h md a fs) (calls : List (Env × BCall))
    (hok : ∀ x ∈ calls, fam x.1 ∧ x.2.Ok x.1 h md fill ∧ x.2.Known fam) :
    Keeps fam h md (bAbsState md fill (calls.map (·.2)) a) (mState h md calls fs) := by
  induction calls generalizing a fs with
  | nil => exact hh
  | cons x xs ih =>
    obtain ⟨env, c⟩ := x
    have hc := hok (env, c) (List.mem_cons_self ..)
    obtain ⟨h1, h2⟩ := hh.shared.step hT hb hsfx hdot hs hc
    exact ih ⟨h2, named_step hh.shared.wf hh.named hh.shared.clear hb hsfx hdot hs hc.2.1.fits⟩
      fun x hx => hok x (List.mem_cons_of_mem _ hx)

theorem inTurn_ok {css : List (Env × List BCall)} (hA : AtOnce fam h md fill css) :
    ∀ x ∈ inTurn css, fam x.1 ∧ x.2.Ok x.1 h md fill ∧ x.2.Known fam := by
  intro x hx
  obtain ⟨y, h1, h2⟩ := List.mem_flatMap.mp hx
  obtain ⟨c, h3, rfl⟩ := List.mem_map.mp h2
  exact hA.ok y h1 c h3

theorem inTurn_calls (css : List (Env × List BCall)) : (inTurn css).map (·.2) = css.flatMap (·.2) := by
  simp [inTurn, List.map_flatMap, Function.comp_def]

/-- A location of a file that lies on the way to what a thread writes is itself such a place. -/
theorem file_write (hs : ∀ q, GoodSep (md q).separator) {cs : List WCall} (hfit : ∀ c ∈ cs, c.Fits h md) {l w : Loc}
    (hl : FileLoc h md l) (hw : w ∈ threadWrites h md cs) (hp : l <+: w) : l = w := by
  obtain ⟨c, h1, h2⟩ := List.mem_flatMap.mp hw
  obtain ⟨h1, hch⟩ := List.mem_filter.mp h1
  cases rootKind (hfit c h1) h2 with
  | array h3 => exact FileLoc.antichain hs hl (.array _ h3) hp
  | group h3 => exact FileLoc.antichain hs hl (.group _ h3) hp
  | spot _ h3 => rw [hch] at h3; cases h3
  | below _ h3 => rw [hch] at h3; cases h3
  | chunk pos h3 h4 => exact FileLoc.antichain hs hl (.chunk _ pos h3 h4) hp
  | data h3 =>
    cases hl with
    | array p _ => exact absurd hp data_not_meta.2
    | group p _ => exact absurd hp data_not_meta.2
    | chunk p pos _ _ => exact absurd hp (chunk_data hs h3).1

/-- Programs that work at the same time. -/
theorem round (hT : Together md fam) (hb : Plain (segs h.base))
    (hsfx : GoodSuffix h.entry) (hdot : '.' ∉ stripDot h.entry.metadataKeySuffix)
    (hs : ∀ q, GoodSep (md q).separator) {a : AbsHier} {fs : Fs} (hh : Keeps fam h md a fs)
    {css : List (Env × List BCall)} (hA : AtOnce fam h md fill css) :
    ∃ N, ∀ ts s, (Sys.initial fs (css.map (machineProg h md))).run h ts = some s →
      ts.length ≤ N ∧
      (∀ (i : Nat) x, css[i]? = some x → ∀ r, s.result i = some r → r = .ok ((bAbsResults md fill x.2 a).map .plain)) ∧
      (∀ i, i < css.length → s.result i = none → ∃ s', s.advance h i = some s') ∧
      ((∀ i, i < css.length → (s.result i).isSome) → Keeps fam h md (bAbsState md fill (css.flatMap (·.2)) a) s.fs) := by
  have S := separate (css := css) hh.shared.wf hh.named hh.shared.clear hb hsfx hdot hs
    (fun x hx c hc => (hA.ok x hx c hc).2.1.fits) hA.sep
  have halone : ∀ x ∈ css, mResults h md (x.2.map fun c => (x.1, c)) fs = bAbsResults md fill x.2 a ∧
      Clear h md (mState h md (x.2.map fun c => (x.1, c)) fs) := by
    intro x hx
    obtain ⟨h1, h2⟩ := hh.shared.history (fill := fill) hT hb hsfx hdot hs (x.2.map fun c => (x.1, c)) (by
      intro y hy
      obtain ⟨c, hc, rfl⟩ := List.mem_map.mp hy
      exact hA.ok x hx c hc)
    refine ⟨?_, h2.clear⟩
    rw [h1, List.map_map]
    simp [Function.comp_def]
  obtain ⟨ms, I⟩ := Inv.init S
  refine ⟨ms.sum, fun ts s hrun => ?_⟩
  obtain ⟨ms', I', hle⟩ := I.run S ts hrun
  refine ⟨by omega, ?_, ?_, ?_⟩
  · intro i x hi r hr
    have := (I'.result (P := machineProg h md x) (by rw [List.getElem?_map, hi]; rfl) hr).1
    rw [this, run_machine, (halone x (List.mem_of_getElem? hi)).1]
  · intro i hi hr
    exact I'.progress S (by simpa using hi) hr
  · intro hall
    obtain ⟨_, h2⟩ := I'.serial S (by simpa using hall)
    rw [runAll_machines] at h2
    have hser := (sound_history hT hb hsfx hdot hs hh (inTurn css) (inTurn_ok hA)).shared
    rw [inTurn_calls] at hser
    refine ⟨hser.congr hb hs I'.wf ?_ h2, I'.named⟩
    intro l hl
    refine ⟨fun q hq hne b hg => ?_, fun hg => ?_⟩
    · have h3 := h2 q
      rw [Fs.content, hg] at h3
      have h4 := (hser.clear l hl).1 q hq hne b
      rw [Fs.content] at h3
      cases h5 : (mState h md (inTurn css) fs).get q with
      | none => rw [h5] at h3; simp at h3
      | some n =>
        cases n with
        | dir => rw [h5] at h3; simp at h3
        | file b' =>
          rw [h5] at h3 h4
          simp only [Option.some.injEq] at h3
          exact h4 (by rw [h3])
    · by_cases hu : ∃ i, i < css.length ∧ Under (threadWrites h md (((css[i]?.map (·.2)).getD []).map .call)) l
      · obtain ⟨i, hi, w, hw, hwl⟩ := hu
        have hx : css[i]? = some css[i] := List.getElem?_eq_getElem hi
        obtain ⟨r, hr⟩ := Option.isSome_iff_exists.mp (hall i hi)
        have h3 := (I'.result (P := machineProg h md css[i]) (by rw [List.getElem?_map, hx]; rfl) hr).2 l
          ⟨w, threadWrites_sub w hw, hwl⟩
        rw [run_machine, hg] at h3
        exact ((halone css[i] (List.mem_of_getElem? hx)).2 l hl).2 h3.symm
      · rcases I'.frame l (fun i hi hw => hu ⟨i, by simpa using hi, hw⟩) with h3 | ⟨_, _, i, hi, w, hw, hp⟩
        · rw [hg] at h3
          exact (hh.shared.clear l hl).2 h3.symm
        · have hi : i < css.length := by simpa using hi
          have hx : css[i]? = some css[i] := List.getElem?_eq_getElem hi
          have := file_write hs (fun c hc => by
            dsimp only at hc
            rw [hx] at hc
            obtain ⟨d, hd, rfl⟩ := List.mem_map.mp hc
            exact (hA.ok _ (List.mem_of_getElem? hx) d hd).2.1.fits) hl hw hp
          exact hu ⟨i, hi, w, hw, this ▸ List.prefix_rfl⟩

end Wide

end

/-- **C107.** Programs on different machines and of different builds use a hierarchy at the same time. In a directory
without a hierarchy, after any history of calls made by any of them, several programs each make calls one after the
other, their system calls interleaved in any way, and no program makes a call about something that another one
changes. Then every program gets the results that its calls have on the map of the history; no program waits for
another or runs forever; and when all have finished, any later history of calls made by any of the programs gives the
results that it gives on the map after the calls of all of them. -/
theorem C107 (fam : Env → Prop) (h : Hier) (md : List Str → ArrayMetadata) (fill : List Str → (t : RsType) → El t)
    (before : List (Env × BCall)) (css : List (Env × List BCall)) (fs : Fs) (hwf : fs.WF) (hnm : fs.Named)
    (hT : Together md fam) (hb : Plain (segs h.base))
    (hsfx : GoodSuffix h.entry) (hdot : '.' ∉ stripDot h.entry.metadataKeySuffix)
    (hs : ∀ q, GoodSep (md q).separator) (hf : FreshDir h fs)
    (hok : ∀ x ∈ before, fam x.1 ∧ x.2.Ok x.1 h md fill ∧ x.2.Known fam)
    (hA : AtOnce fam h md fill css) :
    ∃ N, ∀ ts s, (Wide.Sys.initial (mState h md before fs)
        (css.map fun x => Wide.threadProg x.1 h md (x.2.map .call))).run h ts = some s →
      ts.length ≤ N ∧
      (∀ (i : Nat) x, css[i]? = some x → ∀ r, s.result i = some r →
        r = .ok ((bAbsResults md fill x.2 (bAbsState md fill (before.map (·.2)) AbsHier.empty)).map .plain)) ∧
      (∀ i, i < css.length → s.result i = none → ∃ s', s.advance h i = some s') ∧
      ((∀ i, i < css.length → (s.result i).isSome) →
        ∀ later : List (Env × BCall), (∀ x ∈ later, fam x.1 ∧ x.2.Ok x.1 h md fill ∧ x.2.Known fam) →
          mResults h md later s.fs = bAbsResults md fill (later.map (·.2))
            (bAbsState md fill (before.map (·.2) ++ css.flatMap (·.2)) AbsHier.empty)) := by
  have h0 : Wide.Keeps fam h md AbsHier.empty fs := ⟨.fresh hb hs hwf hf, hnm⟩
  have h1 := Wide.sound_history hT hb hsfx hdot hs h0 before hok
  obtain ⟨N, hN⟩ := Wide.round hT hb hsfx hdot hs h1 hA
  refine ⟨N, fun ts s hrun => ?_⟩
  obtain ⟨h2, h3, h4, h5⟩ := hN ts s hrun
  refine ⟨h2, h3, h4, fun hall later hl => ?_⟩
  rw [bAbsState_append]
  exact ((h5 hall).shared.history hT hb hsfx hdot hs later hl).1

/-- **C107, rounds.** Any number of rounds, in each of which programs work at the same time as in C107, a round beginning
when all programs of the one before have finished: every program of every round gets the results that its calls have on
the map after the calls of the rounds before. -/
theorem C107_rounds (fam : Env → Prop) (h : Hier) (md : List Str → ArrayMetadata)
    (fill : List Str → (t : RsType) → El t) (rounds : List (List (Env × List BCall)))
    (rss : List (List (Outcome (List WResult)))) (fs fs' : Fs) (hwf : fs.WF) (hnm : fs.Named)
    (hT : Together md fam) (hb : Plain (segs h.base))
    (hsfx : GoodSuffix h.entry) (hdot : '.' ∉ stripDot h.entry.metadataKeySuffix)
    (hs : ∀ q, GoodSep (md q).separator) (hf : FreshDir h fs)
    (hA : ∀ css ∈ rounds, AtOnce fam h md fill css) (hr : Rounds h md fs rounds rss fs') :
    rss = roundResults md fill rounds AbsHier.empty := by
  have h0 : Wide.Keeps fam h md AbsHier.empty fs := ⟨.fresh hb hs hwf hf, hnm⟩
  clear hwf hnm hf
  generalize AbsHier.empty = a at h0 ⊢
  induction hr generalizing a with
  | nil => rfl
  | @cons fs fs' css rest rs rss ts s hrun hlen hres _ ih =>
    obtain ⟨N, hN⟩ := Wide.round hT hb hsfx hdot hs h0 (hA css (List.mem_cons_self ..))
    obtain ⟨_, h1, _, h2⟩ := hN ts s hrun
    have hr : ∀ i (hi : i < css.length), s.result i = some (rs[i]'(by omega)) := fun i hi =>
      hres i _ (List.getElem?_eq_getElem (by omega))
    rw [roundResults, ih (fun c hc => hA c (List.mem_cons_of_mem _ hc)) _
      (h2 fun i hi => by rw [hr i hi]; rfl)]
    congr 1
    apply List.ext_getElem (by simpa using hlen)
    intro i hi hi'
    simp only [List.length_map] at hi'
    rw [List.getElem_map]
    exact h1 i css[i] (List.getElem?_eq_getElem hi') _ (hr i hi')

/-! ## A concrete case -/

/-- Two machines write different parts of an array at the same time, and read them. -/
def Demo.atOnce : List (Env × List BCall) :=
  [(Demo.little, [.writeBox Demo.path .u16 [0] ⟨[2], fun i => BitVec.ofNat 16 (10 + i.headD 0)⟩,
     .readBox Demo.path .u16 ⟨[1], [1]⟩]),
   (Demo.big, [.writeBox str!"a/b" .u16 [2] ⟨[2], fun i => BitVec.ofNat 16 (20 + i.headD 0)⟩,
     .readBox Demo.path .u16 ⟨[2], [2]⟩])]

theorem Demo.atOnce_ok :
    AtOnce (fun e => e = Demo.little ∨ e = Demo.big) Demo.hier (fun _ => Demo.arrGz) Demo.fills Demo.atOnce where
  ok := by
    have hp : ∀ {p : Str}, (segs p).all (fun s => decide (s = str!"a" ∨ s = str!"b")) = true → OrdinaryPath Demo.hier p :=
      Demo.ordinaryPath
    have hl : ∀ b, (Demo.tagged b).Lawful := fun b segs _ => rfl
    simp only [Demo.atOnce, List.forall_mem_cons, BCall.Ok, HCall.Ok]
    exact ⟨⟨⟨.inl trivial, ⟨hp (by decide), Demo.boxOkGz (o := 0) (w := 2) (by decide) (by decide), hl 0, fun _ => rfl⟩,
        trivial⟩,
      ⟨.inl trivial, ⟨hp (by decide), Demo.boxOkGz (o := 1) (w := 1) (by decide) (by decide)⟩, trivial⟩, by simp⟩,
      ⟨⟨.inr trivial, ⟨hp (by decide), Demo.boxOkGz (o := 2) (w := 2) (by decide) (by decide), hl 1, fun _ => rfl⟩,
        trivial⟩,
      ⟨.inr trivial, ⟨hp (by decide), Demo.boxOkGz (o := 2) (w := 2) (by decide) (by decide)⟩, trivial⟩, by simp⟩, by simp⟩
  sep := by
    have key : ∀ {o w : Nat} {pos : List Nat}, OverlapsBoth Demo.arrGz ⟨[o], [w]⟩ pos →
        ∃ p x : Nat, pos = [p] ∧ o ≤ x ∧ x < o + w ∧ p * 2 ≤ x ∧ x < (p + 1) * 2 := by
      rintro o w pos ⟨q, h1, h2, h3⟩
      obtain ⟨x, rfl⟩ : ∃ x, q = [x] := by
        match q, h1 with
        | [x], _ => exact ⟨x, rfl⟩
      match pos, h3 with
      | [p], ⟨h3, _⟩ => exact ⟨p, x, rfl, h2.1.1, h2.1.2, h3.1, h3.2⟩
    have low : ∀ c ∈ (Demo.atOnce[0]).2, ∀ a, (WCall.call c).Touches (fun _ => Demo.arrGz) a →
        a = .chunk [str!"a", str!"b"] [0] := by
      simp only [Demo.atOnce, List.getElem_cons_zero, List.forall_mem_cons, List.not_mem_nil, false_imp_iff, implies_true,
        and_true]
      constructor
      · rintro a ⟨pos, h1, rfl⟩
        obtain ⟨p, x, rfl, h2⟩ := key h1
        rw [show p = 0 by omega]; rfl
      · rintro a ⟨pos, h1, rfl⟩
        obtain ⟨p, x, rfl, h2⟩ := key h1
        rw [show p = 0 by omega]; rfl
    have high : ∀ c ∈ (Demo.atOnce[1]).2, ∀ a, (WCall.call c).Touches (fun _ => Demo.arrGz) a →
        a = .chunk [str!"a", str!"b"] [1] := by
      simp only [Demo.atOnce, List.getElem_cons_succ, List.getElem_cons_zero, List.forall_mem_cons, List.not_mem_nil,
        false_imp_iff, implies_true, and_true]
      constructor
      · rintro a ⟨pos, h1, rfl⟩
        obtain ⟨p, x, rfl, h2⟩ := key h1
        rw [show p = 1 by omega]; rfl
      · rintro a ⟨pos, h1, rfl⟩
        obtain ⟨p, x, rfl, h2⟩ := key h1
        rw [show p = 1 by omega]; rfl
    intro i j x x' hi hj hij c hc c' hc' _ a b ha hb
    obtain ⟨hi', rfl⟩ := List.getElem?_eq_some_iff.mp hi
    obtain ⟨hj', rfl⟩ := List.getElem?_eq_some_iff.mp hj
    have hn : Demo.atOnce.length = 2 := rfl
    rw [hn] at hi' hj'
    have : ∀ k < 2, k = 0 ∨ k = 1 := by omega
    rcases this i hi' with rfl | rfl <;> rcases this j hj' with rfl | rfl
    · exact absurd rfl hij
    · rw [low c hc a ha, high c' hc' b hb]; simp [Area.Meets]
    · rw [high c hc a ha, low c' hc' b hb]; simp [Area.Meets]
    · exact absurd rfl hij

/-- Before, one machine creates the array; afterwards each machine reads all of it. -/
def Demo.creates : List (Env × BCall) := [(Demo.little, .call (.createArray Demo.path Demo.arrGz))]

def Demo.reads : List (Env × BCall) :=
  [(Demo.little, .readBox Demo.path .u16 ⟨[0], [5]⟩), (Demo.big, .readBox Demo.path .u16 ⟨[0], [5]⟩)]

theorem Demo.emptyFs_named : Demo.emptyFs.Named := (Wide.wf_of_wellFormed (by decide)).2

/-- The calls meet the hypotheses: in every interleaving, the machines get these results, and both read afterwards
what the two have written. -/
example : ∃ N, ∀ ts s, (Wide.Sys.initial (mState Demo.hier (fun _ => Demo.arrGz) Demo.creates Demo.emptyFs)
      (Demo.atOnce.map fun x => Wide.threadProg x.1 Demo.hier (fun _ => Demo.arrGz) (x.2.map .call))).run Demo.hier ts = some s →
    ts.length ≤ N ∧
    (∀ r, s.result 0 = some r → r = .ok [.plain (.plain (.unit (.ok ()))),
      .plain (.box (.ok ([1], ⟨.u16, ([11] : List (BitVec 16))⟩)))]) ∧
    (∀ r, s.result 1 = some r → r = .ok [.plain (.plain (.unit (.ok ()))),
      .plain (.box (.ok ([2], ⟨.u16, ([20, 21] : List (BitVec 16))⟩)))]) ∧
    ((∀ i, i < 2 → (s.result i).isSome) → mResults Demo.hier (fun _ => Demo.arrGz) Demo.reads s.fs =
      [.box (.ok ([5], ⟨.u16, ([10, 11, 20, 21, 0] : List (BitVec 16))⟩)),
       .box (.ok ([5], ⟨.u16, ([10, 11, 20, 21, 0] : List (BitVec 16))⟩))]) := by
  obtain ⟨N, hN⟩ := C107 _ Demo.hier (fun _ => Demo.arrGz) Demo.fills Demo.creates Demo.atOnce Demo.emptyFs
    Demo.emptyFs_wf Demo.emptyFs_named Demo.together (by decide) (by unfold GoodSuffix; decide) (by decide)
    (fun _ => .inl rfl) Demo.fresh
    (fun x hx => Demo.turns_ok x (by simp only [Demo.creates, List.mem_singleton] at hx; subst hx; exact List.mem_cons_self ..))
    Demo.atOnce_ok
  refine ⟨N, fun ts s hrun => ?_⟩
  obtain ⟨h1, h2, _, h4⟩ := hN ts s hrun
  refine ⟨h1, fun r hr => ?_, fun r hr => ?_, fun hall => ?_⟩
  · rw [h2 0 _ rfl r hr]; rfl
  · rw [h2 1 _ rfl r hr]; rfl
  · rw [h4 hall Demo.reads fun x hx => Demo.turns_ok x (by
      simp only [Demo.reads, List.mem_cons, List.not_mem_nil, or_false] at hx
      rcases hx with rfl | rfl <;> simp [Demo.turns])]
    rfl

/-- They do run to the end when they take turns. -/
example : (((Wide.Sys.initial (mState Demo.hier (fun _ => Demo.arrGz) Demo.creates Demo.emptyFs)
      (Demo.atOnce.map fun x => Wide.threadProg x.1 Demo.hier (fun _ => Demo.arrGz) (x.2.map .call))).run Demo.hier
        ((List.replicate 27 [1, 0]).flatten ++ [0, 0, 0, 0])).map fun s => ((s.result 0).isSome, (s.result 1).isSome)) =
    some (true, true) := by
  set_option maxRecDepth 20000 in
  decide +kernel

end Zarr
