import Verif.Props.RefineBoxes
/-!
# The layout of an array cannot be observed through boxes: C86
-/

namespace Zarr

open Spec

/-! ## The specification -/

/-- Box calls and removal. -/
inductive Spec.ECall where
  | read (p : Str) (t : RsType) (b : BBox)
  | write (p : Str) (t : RsType) (offset : List Nat) (array : NdArr (El t))
  | remove (p : Str)

/-- The elements of every array, by path, element type and point. -/
abbrev Spec.Elements := List Str → (t : RsType) → List Nat → El t

/-- The result of each call on the elements and the elements afterwards. Nothing but elements occurs
here: no chunks, no memory order, no byte order, no compressor. -/
def Spec.ECall.abs (fill : List Str → (t : RsType) → El t) : ECall → Elements → BResult × Elements
  | .read p t b, e => (.box (.ok (b.shape, ⟨t, tabulate .rowMajor b.shape fun i =>
      e (segs p) t (shift b.offset i)⟩)), e)
  | .write p t offset array, e => (.plain (.unit (.ok ())), fun q t' x =>
      if ht : t = t' then
        if q = segs p ∧ inBox offset array.shape x = true then ht ▸ array.get (rel offset x)
        else e q t' x
      else e q t' x)
  | .remove p, e => (.plain (.unit (.ok ())), fun q t x =>
      if segs p <+: q then fill q t else e q t x)

/-- The results of a history of calls on the elements. -/
def Spec.eAbsResults (fill : List Str → (t : RsType) → El t) : List ECall → Elements → List BResult
  | [], _ => []
  | c :: cs, e => (c.abs fill e).1 :: eAbsResults fill cs (c.abs fill e).2

/-- The call of the code. -/
def Spec.ECall.call : ECall → BCall
  | .read p t b => .readBox p t b
  | .write p t offset array => .writeBox p t offset array
  | .remove p => .call (.remove p)

/-- The calls of which the specification speaks: those of C81, and boxes that are read lie inside the
array. -/
def Spec.ECall.Ok (env : Env) (h : Hier) (md : List Str → ArrayMetadata)
    (fill : List Str → (t : RsType) → El t) (c : ECall) : Prop :=
  c.call.Ok env h md fill ∧
  match c with
  | .read p _ b => ∀ i, Inside b.shape i → Inside (md (segs p)).shape (shift b.offset i)
  | _ => True

/-! ## The proof -/

theorem kindOfRs_inj {t t' : RsType} (h : kindOfRs t = kindOfRs t') : t = t' := by
  cases t <;> cases t' <;> first | rfl | exact absurd h (by decide)

/-- The chunks of the abstract hierarchy show these elements. -/
def Shows (env : Env) (h : Hier) (md : List Str → ArrayMetadata)
    (fill : List Str → (t : RsType) → El t) (a : AbsHier) (e : Elements) : Prop :=
  ∀ q t, (∃ d, effective (md q).dataType = some d ∧ kindOf d = kindOfRs t) →
    ∀ x, Inside (md q).shape x → a.elem (md q) t (fill q t) q x = e q t x

section
variable {env : Env} {h : Hier} {md : List Str → ArrayMetadata} {fill : List Str → (t : RsType) → El t}

theorem shows_empty : Shows env h md fill AbsHier.empty (fun q t _ => fill q t) :=
  fun _ _ _ _ _ => rfl

theorem shows_step {a : AbsHier} {e : Elements} {c : ECall} (hs : Shows env h md fill a e)
    (hc : c.Ok env h md fill) :
    (c.call.abs md fill a).1 = (c.abs fill e).1 ∧
      Shows env h md fill (c.call.abs md fill a).2 (c.abs fill e).2 := by
  cases c with
  | read p t b =>
    obtain ⟨⟨_, ok⟩, hin⟩ := hc
    refine ⟨?_, hs⟩
    simp only [ECall.call, BCall.abs, ECall.abs]
    congr 4
    apply tabulate_congr
    intro i hi
    have hx := hin i hi
    have hst : startsIn (md (segs p)).shape (md (segs p)).chunkShape
        (chunkOf (md (segs p)).chunkShape (shift b.offset i)) = true := by
      rw [startsIn_iff, ← starts_iff ok.dims ok.pos]
      exact ⟨_, hx, (covers_iff ok.pos).mpr ⟨by rw [Inside.length hx, ok.dims], rfl⟩⟩
    rw [if_pos hst]
    exact hs _ _ ok.type _ hx
  | write p t offset array =>
    obtain ⟨⟨_, ok, _⟩, _⟩ := hc
    refine ⟨rfl, ?_⟩
    intro q t' ht' x hx
    simp only [ECall.call, BCall.abs, ECall.abs]
    have hold := hs q t' ht' x hx
    by_cases hq : q = segs p
    · subst hq
      obtain ⟨d, hd, hk⟩ := ok.type
      obtain ⟨d', hd', hk'⟩ := ht'
      rw [hd] at hd'
      simp only [Option.some.injEq] at hd'
      subst hd'
      have htt : t = t' := kindOfRs_inj (hk.symm.trans hk')
      subst htt
      rw [dif_pos rfl]
      simp only [true_and]
      have hcv : Covers (md (segs p)).chunkShape (chunkOf (md (segs p)).chunkShape x) x :=
        (covers_iff ok.pos).mpr ⟨by rw [Inside.length hx, ok.dims], rfl⟩
      have hpl : x.length = (md (segs p)).chunkShape.length := by rw [Inside.length hx, ok.dims]
      unfold AbsHier.elem
      simp only [true_and]
      by_cases hm : meets (md (segs p)).shape (md (segs p)).chunkShape offset array.shape
          (chunkOf (md (segs p)).chunkShape x) = true
      · rw [if_pos hm]
        simp only [Option.bind_some, elemAt_same]
        rw [tabulate_getElem (within_inside ok.pos hpl), corner_eq, shift_within hpl]
        simp only [Option.getD_some]
        by_cases hb : inBox offset array.shape x = true
        · rw [if_pos hb, if_pos hb]
        · rw [if_neg hb, if_neg hb]
          exact hold
      · rw [if_neg hm, if_neg]
        · exact hold
        · intro hb
          exact hm ((meets_iff ok.pos).mpr ⟨x, hx, inBox_iff.mp hb, hcv⟩)
    · have h1 : (if ht : t = t' then
          if q = segs p ∧ inBox offset array.shape x = true then ht ▸ array.get (rel offset x)
          else e q t' x
        else e q t' x) = e q t' x := by
        split
        · rw [if_neg (fun hh => hq hh.1)]
        · rfl
      rw [h1, ← hold]
      unfold AbsHier.elem
      simp only [hq, false_and, if_false]
  | remove p =>
    refine ⟨rfl, ?_⟩
    intro q t ht x hx
    simp only [ECall.call, BCall.abs, HCall.abs, ECall.abs]
    have hold := hs q t ht x hx
    by_cases hq : segs p <+: q
    · rw [if_pos hq]
      unfold AbsHier.elem
      simp only [if_pos hq]
      rfl
    · rw [if_neg hq, ← hold]
      unfold AbsHier.elem
      simp only [if_neg hq]

theorem bAbs_eq_eAbs {a : AbsHier} {e : Elements} (calls : List ECall) (hs : Shows env h md fill a e)
    (hc : ∀ c ∈ calls, c.Ok env h md fill) :
    bAbsResults md fill (calls.map ECall.call) a = eAbsResults fill calls e := by
  induction calls generalizing a e with
  | nil => rfl
  | cons c cs ih =>
    obtain ⟨h1, h2⟩ := shows_step hs (hc c (by simp))
    simp only [List.map_cons, bAbsResults, eAbsResults]
    rw [h1, ih h2 (fun c hc' => hc c (by simp [hc']))]

end

/-- **C86, elements.** In a directory without a hierarchy, a history of box reads inside the arrays, box
writes and removals gives the results that it gives on plain arrays of elements. -/
theorem C86_elements (env : Env) (h : Hier) (md : List Str → ArrayMetadata)
    (fill : List Str → (t : RsType) → El t) (calls : List ECall) (fs : Fs) (hwf : fs.WF)
    (hj : env.json.Lawful) (hb : Plain (segs h.base)) (hsfx : GoodSuffix h.entry)
    (hdot : '.' ∉ stripDot h.entry.metadataKeySuffix) (hs : ∀ q, GoodSep (md q).separator)
    (hf : FreshDir h fs) (hok : ∀ c ∈ calls, c.Ok env h md fill) :
    bResults env h md (calls.map ECall.call) fs
      = eAbsResults fill calls (fun q t _ => fill q t) := by
  rw [C81 env h md fill (calls.map ECall.call) fs hwf hj hb hsfx hdot hs hf (by
    intro c hc
    obtain ⟨c', hc', rfl⟩ := List.mem_map.mp hc
    exact (hok c' hc').1)]
  exact bAbs_eq_eAbs calls shows_empty hok

/-- **C86.** Two hierarchies in directories without a hierarchy whose arrays differ in chunk shape, memory
order, byte order, separator or compressor, or that are kept under other names or on another machine, give
the same results for every history of box reads inside the arrays, box writes and removals. -/
theorem C86 (env env' : Env) (h h' : Hier) (md md' : List Str → ArrayMetadata)
    (fill : List Str → (t : RsType) → El t) (calls : List ECall) (fs fs' : Fs) (hwf : fs.WF)
    (hwf' : fs'.WF) (hj : env.json.Lawful) (hj' : env'.json.Lawful) (hb : Plain (segs h.base))
    (hb' : Plain (segs h'.base)) (hsfx : GoodSuffix h.entry) (hsfx' : GoodSuffix h'.entry)
    (hdot : '.' ∉ stripDot h.entry.metadataKeySuffix) (hdot' : '.' ∉ stripDot h'.entry.metadataKeySuffix)
    (hs : ∀ q, GoodSep (md q).separator) (hs' : ∀ q, GoodSep (md' q).separator)
    (hf : FreshDir h fs) (hf' : FreshDir h' fs') (hok : ∀ c ∈ calls, c.Ok env h md fill)
    (hok' : ∀ c ∈ calls, c.Ok env' h' md' fill) :
    bResults env h md (calls.map ECall.call) fs = bResults env' h' md' (calls.map ECall.call) fs' := by
  rw [C86_elements env h md fill calls fs hwf hj hb hsfx hdot hs hf hok,
    C86_elements env' h' md' fill calls fs' hwf' hj' hb' hsfx' hdot' hs' hf' hok']

/-! ## A concrete case -/

/-- The demo array in one more layout: chunks of three, little-endian, row-major, another separator. -/
def Demo.arr3 : ArrayMetadata :=
  { Demo.arr with
    chunkShape := [3], dataType := .core (.uint .B2 .little), order := .rowMajor, separator := str!"." }

/-- Write three elements, write one again, read four, remove, read two. -/
def Demo.elementHistory : List ECall :=
  [.write Demo.path .u16 [1] ⟨[3], fun i => BitVec.ofNat 16 (10 + i.headD 0)⟩,
   .write Demo.path .u16 [2] ⟨[1], fun _ => (77 : BitVec 16)⟩, .read Demo.path .u16 ⟨[1], [4]⟩,
   .remove Demo.path, .read Demo.path .u16 ⟨[0], [2]⟩]

theorem Demo.boxOk3 {o w : Nat} (hw : 0 < w) (ho : o < 5) :
    BoxOk Demo.envJ Demo.arr3 .u16 (El.default .u16) ⟨[o], [w]⟩ where
  type := ⟨_, rfl, rfl⟩
  fill := by decide
  dims := rfl
  some := by decide
  pos := by decide
  small := by decide
  offset := rfl
  shape := rfl
  meets := ⟨[o], ⟨ho, trivial⟩, ⟨⟨Nat.le_refl _, by omega⟩, trivial⟩⟩

theorem Demo.elementHistory_ok {m : ArrayMetadata} (hm : m.shape = [5]) (hc : m.compressor = .raw)
    (hb : ∀ {o w : Nat}, 0 < w → o < 5 → BoxOk Demo.envJ m .u16 (El.default .u16) ⟨[o], [w]⟩) :
    ∀ c ∈ Demo.elementHistory, c.Ok Demo.envJ Demo.hier (fun _ => m) Demo.fills := by
  have hp : OrdinaryPath Demo.hier Demo.path := Demo.ordinaryPath (by decide)
  have hin : ∀ o w : Nat, o + w ≤ 5 → ∀ i, Inside [w] i → Inside m.shape (shift [o] i) := by
    intro o w how i hi
    rw [hm]
    match i, hi with
    | [x], hi => simp [Inside, shift] at hi ⊢; omega
  have hlaw : (codecOf Demo.envJ.codecs m.compressor).Lawful ∧
      ∀ s, ((codecOf Demo.envJ.codecs m.compressor).encode s).2 = .ok () := by
    rw [hc]; exact ⟨rawCodec_lawful, fun _ => rfl⟩
  simp only [Demo.elementHistory, List.forall_mem_cons, ECall.Ok, ECall.call, BCall.Ok, HCall.Ok]
  exact ⟨⟨⟨hp, hb (by decide) (by decide), hlaw⟩, trivial⟩,
    ⟨⟨hp, hb (by decide) (by decide), hlaw⟩, trivial⟩,
    ⟨⟨hp, hb (by decide) (by decide)⟩, hin 1 4 (by decide)⟩, ⟨hp, trivial⟩,
    ⟨⟨hp, hb (by decide) (by decide)⟩, hin 0 2 (by decide)⟩, by simp⟩

/-- The history meets the hypotheses in both layouts, and its results are these. -/
example : bResults Demo.envJ Demo.hier (fun _ => Demo.arr) (Demo.elementHistory.map ECall.call) Demo.emptyFs
      = bResults Demo.envJ Demo.hier (fun _ => Demo.arr3) (Demo.elementHistory.map ECall.call) Demo.emptyFs ∧
    bResults Demo.envJ Demo.hier (fun _ => Demo.arr3) (Demo.elementHistory.map ECall.call) Demo.emptyFs
      = [.plain (.unit (.ok ())), .plain (.unit (.ok ())),
         .box (.ok ([4], ⟨.u16, ([10, 77, 12, 0] : List (BitVec 16))⟩)), .plain (.unit (.ok ())),
         .box (.ok ([2], ⟨.u16, ([0, 0] : List (BitVec 16))⟩))] := by
  have h1 := Demo.elementHistory_ok (m := Demo.arr) rfl rfl Demo.boxOk
  have h3 := Demo.elementHistory_ok (m := Demo.arr3) rfl rfl Demo.boxOk3
  have hsfx : GoodSuffix Demo.hier.entry := by unfold GoodSuffix; decide
  refine ⟨C86 Demo.envJ Demo.envJ Demo.hier Demo.hier _ _ Demo.fills Demo.elementHistory Demo.emptyFs
    Demo.emptyFs Demo.emptyFs_wf Demo.emptyFs_wf jsonText_lawful jsonText_lawful (by decide) (by decide)
    hsfx hsfx (by decide) (by decide) (fun _ => .inl rfl) (fun _ => .inr ⟨⟨_, _, rfl, by decide⟩, by decide⟩) Demo.fresh
    Demo.fresh h1 h3, ?_⟩
  rw [C86_elements Demo.envJ Demo.hier (fun _ => Demo.arr3) Demo.fills Demo.elementHistory Demo.emptyFs
    Demo.emptyFs_wf jsonText_lawful (by decide) hsfx (by decide) (fun _ => .inr ⟨⟨_, _, rfl, by decide⟩, by decide⟩)
    Demo.fresh h3]
  rfl

end Zarr
