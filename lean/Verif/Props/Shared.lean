import Verif.Props.Session
import Verif.Props.ThreadCalls
/-!
# Machines and builds that share a hierarchy: C106
-/

namespace Zarr

open Spec

/-! ## The specification -/

/-- The results of calls each of which may be made by another program: another machine, with its own byte order,
and another build, with its own cargo features, compression libraries and overflow checks. -/
def Spec.mResults (h : Hier) (md : List Str → ArrayMetadata) : List (Env × BCall) → Fs → List BResult
  | [], _ => []
  | (env, c) :: cs, fs => (c.run env h md fs).1 :: mResults h md cs (c.run env h md fs).2

/-- What one build compresses successfully, the other decompresses. -/
def Spec.Codec.ReadBy (c c' : Codec) : Prop :=
  ∀ segs, (c.encode segs).2 = .ok () → c'.decode (c.encode segs).1 = .ok ⟨segs.flatten, none⟩

/-- Programs that can work together: they use the same JSON library, and read what the others compress. -/
structure Spec.Together (md : List Str → ArrayMetadata) (fam : Env → Prop) : Prop where
  json : ∀ env env', fam env → fam env' → env.json = env'.json
  lawful : ∀ env, fam env → env.json.Lawful
  codecs : ∀ env env', fam env → fam env' → ∀ q,
    Codec.ReadBy (codecOf env.codecs (md q).compressor) (codecOf env'.codecs (md q).compressor)

/-- An array is created with a compressor that every program has. -/
def Spec.BCall.Known (fam : Env → Prop) : BCall → Prop
  | .call (.createArray _ m) => ∀ env, fam env → m.compressor.enabled env.features = true
  | _ => True

/-! ## Documents -/

theorem CompressionType.fromJson_other {f f' : Features} {j : Json} {c : CompressionType}
    (hc : CompressionType.fromJson f j = .ok c) :
    CompressionType.fromJson f' j = if c.enabled f' then .ok c else .err .json := by
  simp only [CompressionType.fromJson, Outcome.bind_eq_ok] at hc
  obtain ⟨m, h1, t, h2, t', h3, cfg, h4, h5⟩ := hc
  simp only [CompressionType.fromJson, h1, h2, h3, h4, Outcome.bind_ok]
  unfold CompressionType.fromTag at h5 ⊢
  by_cases e1 : t' = str!"raw"
  · rw [if_pos e1] at h5 ⊢
    cases cfg <;> simp_all [CompressionType.enabled]
    subst h5; rfl
  rw [if_neg e1] at h5 ⊢
  by_cases e2 : t' = str!"bzip2"
  · subst e2
    by_cases hf : f.bzip = true
    · simp only [hf, and_self, if_true, Outcome.bind_eq_ok, Outcome.pure_def, Outcome.ok.injEq] at h5
      obtain ⟨b, hb, rfl⟩ := h5
      by_cases hf' : f'.bzip = true
      · rw [if_pos ⟨rfl, hf'⟩, hb]
        simp only [CompressionType.enabled, hf', if_true]
        rfl
      · simp [hf', CompressionType.enabled]
    · simp [hf] at h5
  by_cases e3 : t' = str!"https://purl.org/zarr/spec/codec/gzip/1.0"
  · subst e3
    by_cases hf : f.gzip = true
    · simp [hf, Outcome.bind_eq_ok] at h5
      obtain ⟨b, hb, rfl⟩ := h5
      by_cases hf' : f'.gzip = true <;> simp [hf', hb, CompressionType.enabled]
    · simp [hf] at h5
  by_cases e4 : t' = str!"lz4"
  · subst e4
    by_cases hf : (f.lz || f.lzPure) = true
    · rw [if_neg (by simp), if_neg (by simp), if_pos ⟨rfl, hf⟩] at h5
      simp only [Outcome.bind_eq_ok, Outcome.pure_def, Outcome.ok.injEq] at h5
      obtain ⟨b, hb, rfl⟩ := h5
      rw [if_neg (by simp), if_neg (by simp)]
      by_cases hf' : (f'.lz || f'.lzPure) = true
      · rw [if_pos ⟨rfl, hf'⟩, hb]
        simp only [CompressionType.enabled, hf', if_true]
        rfl
      · rw [if_neg (fun hh => hf' hh.2), if_neg (by simp)]
        simp only [CompressionType.enabled, hf', Bool.false_eq_true, if_false]
    · rw [if_neg (by simp), if_neg (by simp), if_neg (fun hh => hf hh.2), if_neg (by simp)] at h5
      simp at h5
  by_cases e5 : t' = str!"xz"
  · subst e5
    by_cases hf : f.xz = true
    · simp [hf, Outcome.bind_eq_ok] at h5
      obtain ⟨b, hb, rfl⟩ := h5
      by_cases hf' : f'.xz = true <;> simp [hf', hb, CompressionType.enabled]
    · simp [hf] at h5
  · simp [e2, e3, e4, e5] at h5

/-- Another build reads the same metadata if it has the compressor, and none otherwise. -/
theorem ArrayMetadata.fromJson_other {f f' : Features} {j : Json} {m : ArrayMetadata}
    (hm : ArrayMetadata.fromJson f j = .ok m) :
    ArrayMetadata.fromJson f' j = if m.compressor.enabled f' then .ok m else .err .json := by
  simp only [ArrayMetadata.fromJson, Outcome.bind_eq_ok, Outcome.pure_def] at hm
  obtain ⟨o, h1, s, h2, s', h3, d, h4, d', h5, g, h6, g', h7, gt, h8, gt', h9, cs, h10, cs', h11, sp, h12, sp', h13,
    od, h14, od', h15, x, h16, x', h17, x'', h18, a, h19, a', h20, h21⟩ := hm
  simp only [ArrayMetadata.fromJson, h1, h2, h3, h4, h5, h6, h7, h8, h9, h10, h11, h12, h13, h14, h15, h16, h17, h18,
    h19, h20, Outcome.bind_ok, Outcome.pure_def]
  cases hg : objGet o str!"compressor" with
  | none =>
    simp only [hg, Outcome.bind_ok, Outcome.ok.injEq] at h21 ⊢
    subst h21
    simp [CompressionType.default, CompressionType.enabled]
  | some j =>
    simp only [hg, Outcome.bind_eq_ok, Outcome.ok.injEq] at h21 ⊢
    obtain ⟨c, hc, rfl⟩ := h21
    simp only [CompressionType.fromJson_other (f' := f') hc]
    split <;> rfl

section
variable {h : Hier} {md : List Str → ArrayMetadata} {fam : Env → Prop}

theorem DocsOf.other {env env' : Env} (hj : env.json = env'.json) {n : Option AbsNode} {ad gd : Option Bytes}
    (hn : ∀ m a, n = some (.array m a) → m.compressor.enabled env'.features = true) (hd : DocsOf env n ad gd) :
    DocsOf env' n ad gd := by
  cases n with
  | none => exact hd
  | some n =>
    cases n with
    | group a => unfold DocsOf at hd ⊢; rw [← hj]; exact hd
    | array m a =>
      obtain ⟨h1, b, kvs, m', h2, h3, h4, h5, h6, h7, h8, h9⟩ := hd
      refine ⟨h1, b, kvs, m', h2, by rw [← hj]; exact h3, by rw [← hj]; exact h4, h5, ?_, h7, h8, h9⟩
      have := hn m a rfl
      rw [h8] at this
      rw [ArrayMetadata.fromJson_other h6, if_pos this]

/-! ## Chunks -/

/-- Bytes that one of the programs compressed for an array. -/
def StoredBy (fam : Env → Prop) (md : List Str → ArrayMetadata) (q : List Str) (b : Bytes) : Prop :=
  ∃ env, fam env ∧ ∃ s, (codecOf env.codecs (md q).compressor).encode s = (b, .ok ())

/-- Every chunk file is one that one of the programs wrote. -/
def Written (h : Hier) (fam : Env → Prop) (md : List Str → ArrayMetadata) (fs : Fs) : Prop :=
  ∀ p pos, OrdinaryPath h p → ∀ b, fs.content (h.loc (chunkKey p (md (segs p)) pos)) = some b → StoredBy fam md (segs p) b

/-- A type that has a Rust type either declares its byte order or has elements of one byte. -/
theorem elsOfBytes_native {d : DataType} {t : RsType} (hk : kindOf d = kindOfRs t) (n n' : Endian) (k : Nat) (bs : Bytes) :
    elsOfBytes (d.endian n) t k bs = elsOfBytes (d.endian n') t k bs := by
  cases d with
  | int s e => rfl
  | uint s e => rfl
  | float s e => rfl
  | bool =>
    refine elsOfBytes_size1 _ _ ?_ k bs
    cases t <;> first | rfl | exact absurd hk (by simp [kindOf, kindOfRs])
  | raw s => cases t <;> exact absurd hk (by simp [kindOf, kindOfRs])

/-- All the programs see the same chunk. -/
theorem observe_other {env env' : Env} (hT : Together md fam) (he : fam env) (he' : fam env') {fs : Fs} (hwf : fs.WF)
    (hb : Plain (segs h.base)) (hs : ∀ q, GoodSep (md q).separator) (hw : Written h fam md fs) {p : Str} {t : RsType}
    {pos : List Nat} (hp : OrdinaryPath h p) (hc : ChunkCallOk (md (segs p)) t pos) :
    observe env' h p (md (segs p)) t pos fs = observe env h p (md (segs p)) t pos fs := by
  have hpl := plain_loc_chunk (h := h) (m := md (segs p)) hb hp.plain (hs _) pos
  have hg := storeGet_eq hwf hpl
  obtain ⟨d, hd, hk⟩ := hc.type
  unfold observe
  cases hcont : fs.content (h.loc (chunkKey p (md (segs p)) pos)) with
  | none =>
    rw [hcont] at hg
    rw [readChunk_inBounds (env := env) hc.bounds hg, readChunk_inBounds (env := env') hc.bounds hg]
  | some b =>
    rw [hcont] at hg
    rw [readChunk_inBounds (env := env) hc.bounds hg, readChunk_inBounds (env := env') hc.bounds hg]
    obtain ⟨e, hfe, s, hs⟩ := hw p pos hp b hcont
    have key : ∀ e', fam e' → (codecOf e'.codecs (md (segs p)).compressor).decode b = .ok ⟨s.flatten, none⟩ := by
      intro e' hfe'
      have := hT.codecs e e' hfe hfe' (segs p) s (by rw [hs])
      rw [hs] at this
      exact this
    simp only
    rw [readChunkBytes_eq (effective_iff.mpr hd) ((eqModuloEndian_iff_kind env.native d t).mpr hk),
      readChunkBytes_eq (effective_iff.mpr hd) ((eqModuloEndian_iff_kind env'.native d t).mpr hk), key env he, key env' he']
    simp only [Outcome.bind_ok, elsOfBytes_native hk env.native env'.native]

theorem Holds.other {env env' : Env} (hT : Together md fam) (he : fam env) (he' : fam env') {a : AbsHier} {fs : Fs}
    (hb : Plain (segs h.base)) (hs : ∀ q, GoodSep (md q).separator) (hw : Written h fam md fs)
    (hn : ∀ q m ats, a.node q = some (.array m ats) → m.compressor.enabled env'.features = true)
    (hh : Holds env h md a fs) : Holds env' h md a fs where
  wf := hh.wf
  clear := hh.clear
  docs p hp := (hh.docs p hp).other (hT.json env env' he he') (hn _)
  data p t pos hp hc := by
    rw [observe_other hT he he' hh.wf hb hs hw hp hc]
    exact hh.data p t pos hp hc

/-! ## Every call leaves chunk files of the programs -/

/-- A call that, when it succeeds, leaves a tree and chunk files of the programs. -/
def KeepsWritten {α : Type} (h : Hier) (fam : Env → Prop) (md : List Str → ArrayMetadata) (x : M Fs α) : Prop :=
  ∀ fs a fs', fs.WF → Written h fam md fs → x fs = (.ok a, fs') → fs'.WF ∧ Written h fam md fs'

theorem KeepsWritten.ro {α : Type} {x : M Fs α} (hx : M.ReadOnly x) : KeepsWritten h fam md x := by
  intro fs a fs' hwf hw e
  have := hx fs
  rw [e] at this
  dsimp only at this
  rw [this]
  exact ⟨hwf, hw⟩

theorem KeepsWritten.bind {α β : Type} {x : M Fs α} {f : α → M Fs β} (hx : KeepsWritten h fam md x)
    (hf : ∀ a, KeepsWritten h fam md (f a)) : KeepsWritten h fam md (x >>= f) := by
  intro fs b fs' hwf hw e
  rw [M.bind_apply] at e
  cases e1 : x fs with
  | mk r fs1 =>
    rw [e1] at e
    cases r with
    | ok a =>
      obtain ⟨h1, h2⟩ := hx fs a fs1 hwf hw e1
      exact hf a fs1 b fs' h1 h2 e
    | err e' => simp at e
    | panic => simp at e

/-- A call that changes no chunk file except by deleting it. -/
theorem Written.mono {fs fs' : Fs} (hw : Written h fam md fs)
    (hc : ∀ p pos, OrdinaryPath h p → fs'.content (h.loc (chunkKey p (md (segs p)) pos)) = none ∨
      fs'.content (h.loc (chunkKey p (md (segs p)) pos)) = fs.content (h.loc (chunkKey p (md (segs p)) pos))) :
    Written h fam md fs' := by
  intro p pos hp b hb
  rcases hc p pos hp with e | e
  · rw [e] at hb; simp at hb
  · exact hw p pos hp b (by rw [← e]; exact hb)

theorem writeChunk_keeps {env : Env} (he : fam env) (hb : Plain (segs h.base))
    (hs : ∀ q, GoodSep (md q).separator) {p : Str} (hp : OrdinaryPath h p) {t : RsType} (c : DataChunk t) :
    KeepsWritten h fam md (writeChunk env h p (md (segs p)) c) := by
  intro fs u fs' hwf hw e
  have hpl := plain_loc_chunk (h := h) (m := md (segs p)) hb hp.plain (hs _) c.gridPosition
  have hf := storeSet_frame hwf hpl e
  refine ⟨hf.1, fun q pos hq b hc => ?_⟩
  by_cases hl : h.loc (chunkKey q (md (segs q)) pos) = h.loc (chunkKey p (md (segs p)) c.gridPosition)
  · have hcell := Threads.chunkLoc_inj hs hq hp hl
    obtain ⟨s1, s2⟩ := storeSet_spec (h := h) (key := chunkKey p (md (segs p)) c.gridPosition)
      (writeChunkBytes env.codecs env.native (md (segs p)) c) hwf hpl
    unfold writeChunk at e
    by_cases hwr : Writable fs (h.loc (chunkKey p (md (segs p)) c.gridPosition))
    · obtain ⟨fs1, e1, _, hget⟩ := s1 hwr
      rw [e] at e1
      obtain ⟨e2, rfl⟩ := Prod.mk.inj e1
      obtain ⟨d, segs', _, _, _, _, hw1⟩ := writeChunkBytes_ok e2.symm
      have hb1 : fs'.content (h.loc (chunkKey p (md (segs p)) c.gridPosition)) =
          some (writeChunkBytes env.codecs env.native (md (segs p)) c).1 := by
        apply Fs.content_eq_some.mpr
        rw [hget, setSpec, if_pos rfl]
      rw [hl, hb1] at hc
      rw [hcell.1]
      refine ⟨env, he, segs', ?_⟩
      rw [← hw1]
      exact Prod.ext (Option.some.inj hc) e2.symm
    · obtain ⟨e', e1⟩ := s2 hwr
      rw [e] at e1
      simp at e1
  · rw [hf.2 _ hl] at hc
    exact hw q pos hq b hc

theorem writeCoord_keeps {env : Env} (he : fam env) (hb : Plain (segs h.base))
    (hs : ∀ q, GoodSep (md q).separator) {p : Str} (hp : OrdinaryPath h p) {t : RsType} {bbox : BBox} {fill : El t}
    {array : NdArr (El t)} {pos : List Nat} {existing : List (El t)} :
    KeepsWritten h fam md (writeCoord env h p (md (segs p)) bbox fill array pos existing) := by
  refine (KeepsWritten.ro (.lift _)).bind fun w => (KeepsWritten.ro (.lift _)).bind fun b =>
    (KeepsWritten.ro (.lift _)).bind fun v => ?_
  have hw : ∀ c : DataChunk t, KeepsWritten h fam md (writeChunk env h p (md (segs p)) c) := writeChunk_keeps he hb hs hp
  by_cases e : w = (md (segs p)).chunkBounds pos
  · rw [if_pos e]
    exact (hw _).bind fun _ => .ro (.pure _)
  · rw [if_neg e]
    exact (KeepsWritten.ro (readChunkInto_ro _ _ _ _ _ _ _)).bind fun _ => (KeepsWritten.ro (.lift _)).bind fun _ =>
      (KeepsWritten.ro (.lift _)).bind fun _ => (KeepsWritten.ro (.lift _)).bind fun _ => (hw _).bind fun _ => .ro (.pure _)

theorem writeNdarray_keeps {env : Env} (he : fam env) (hb : Plain (segs h.base))
    (hs : ∀ q, GoodSep (md q).separator) {p : Str} (hp : OrdinaryPath h p) {t : RsType} (offset : List Nat)
    (array : NdArr (El t)) : KeepsWritten h fam md (writeNdarray env h p (md (segs p)) offset array) := by
  have hloop : ∀ bbox (fill : El t) coords existing,
      KeepsWritten h fam md (writeLoop env h p (md (segs p)) bbox fill array coords existing) := by
    intro bbox fill coords
    induction coords with
    | nil => exact fun _ => .ro (.pure _)
    | cons pos rest ih => exact fun _ => (writeCoord_keeps he hb hs hp).bind fun e => ih e
  unfold writeNdarray
  split
  · exact .ro (.lift _)
  · exact (KeepsWritten.ro (.lift _)).bind fun _ => (KeepsWritten.ro (.lift _)).bind fun _ => hloop _ _ _ _

theorem NodeOp.keeps_docs {env : Env} (hb : Plain (segs h.base)) (hsfx : GoodSuffix h.entry) {op : NodeOp}
    (hp : op.NoDotDot) (ht : ∀ p m pos, ¬ op.Touches h (h.loc (chunkKey p m pos))) {fs : Fs} (hwf : fs.WF)
    (hw : Written h fam md fs) : Written h fam md (op.run env h fs) :=
  hw.mono fun p pos _ => .inr ((NodeOp.run_frame (env := env) hwf hb hsfx hp).2 _ (ht p _ pos))

theorem bCall_keeps {env : Env} (he : fam env) (hj : env.json.Lawful) (hb : Plain (segs h.base))
    (hsfx : GoodSuffix h.entry) (hdot : '.' ∉ stripDot h.entry.metadataKeySuffix)
    (hs : ∀ q, GoodSep (md q).separator) {a : AbsHier} {fs : Fs} (hh : Holds env h md a fs)
    {fill : List Str → (t : RsType) → El t} (c : BCall) (hok : c.Ok env h md fill) (hw : Written h fam md fs) :
    Written h fam md (c.run env h md fs).2 := by
  have hwf := hh.wf
  have hstep := (bStep hj hb hsfx hdot hs hh c hok).1
  have hro : ∀ {fs' : Fs}, fs' = fs → Written h fam md fs' := by rintro _ rfl; exact hw
  have docs : ∀ {op : NodeOp}, op.NoDotDot → (∀ p m pos, ¬ op.Touches h (h.loc (chunkKey p m pos))) →
      Written h fam md (op.run env h fs) := fun h1 h2 => NodeOp.keeps_docs hb hsfx h1 h2 hwf hw
  cases c with
  | call c =>
    cases c with
    | createGroup p =>
      have := docs (op := .createGroup p) (Spec.OrdinaryPath.plain hok) (fun q m pos ht => docLoc_ne_chunk (Eq.symm ht))
      simpa only [BCall.run, HCall.run, NodeOp.run] using this
    | createArray p m =>
      have := docs (op := .createArray p m) (Spec.OrdinaryPath.plain hok.1) (fun q m pos ht => docLoc_ne_chunk (Eq.symm ht))
      simpa only [BCall.run, HCall.run, NodeOp.run] using this
    | setAttributes p b =>
      have := docs (op := .setAttributes p b) (Spec.OrdinaryPath.plain hok.1) (fun q m pos ht => by
        rcases ht with ht | ht <;> exact docLoc_ne_chunk (Eq.symm ht))
      simpa only [BCall.run, HCall.run, NodeOp.run] using this
    | remove p =>
      have hf := (remove_frame (h := h) (path := p) hwf hb hsfx (Spec.OrdinaryPath.plain hok)).2.1
      have : Written h fam md (Zarr.remove h p fs).2 := by
        refine hw.mono fun q pos _ => ?_
        rcases hf (h.loc (chunkKey q (md (segs q)) pos)) with e | e
        · exact .inr (Fs.content_congr e)
        · exact .inl e.1
      simpa only [BCall.run, HCall.run] using this
    | writeChunk p t c =>
      have hres : (Zarr.writeChunk env h p (md (segs p)) c fs).1 = .ok () := by
        simpa only [BCall.run, HCall.run, BCall.abs, HCall.abs, BResult.plain.injEq, HResult.unit.injEq] using hstep
      exact (writeChunk_keeps he hb hs hok.1 c fs () _ hwf hw (Prod.ext hres rfl)).2
    | deleteChunk p pos =>
      have hpl := plain_loc_chunk (h := h) (m := md (segs p)) hb (Spec.OrdinaryPath.plain hok.1) (hs _) pos
      obtain ⟨_, f, f'⟩ := storeErase_frame hwf hpl (Prod.eta (storeErase h (chunkKey p (md (segs p)) pos) fs)).symm
      refine hw.mono fun q pos' _ => ?_
      rcases f (h.loc (chunkKey q (md (segs q)) pos')) with e | e
      · exact .inr (Fs.content_congr e)
      · rw [e]; exact .inl f'
    | nodeExists p => simpa only [BCall.run, HCall.run] using hro (nodeExists_ro _ _ _)
    | arrayExists p => simpa only [BCall.run, HCall.run] using hro (arrayExists_ro _ _ _ _)
    | getArrayMetadata p => simpa only [BCall.run, HCall.run] using hro (getArrayMetadata_ro _ _ _ _)
    | listAttributes p => simpa only [BCall.run, HCall.run] using hro (listAttributes_ro _ _ _ _)
    | readChunk p t pos => simpa only [BCall.run, HCall.run] using hro (readChunk_ro _ _ _ _ _ _ _)
  | readBox p t b => simpa only [BCall.run] using hro (C58_ndarray env h p (md (segs p)) t b fs).1
  | writeBox p t offset array =>
    have hres : (writeNdarray env h p (md (segs p)) offset array fs).1 = .ok () := by
      simpa only [BCall.run, BCall.abs, BResult.plain.injEq, HResult.unit.injEq] using hstep
    exact (writeNdarray_keeps he hb hs hok.1 offset array fs () _ hwf hw (Prod.ext hres rfl)).2

/-- Arrays keep compressors that every program has. -/
theorem known_step {a : AbsHier} {fill : List Str → (t : RsType) → El t} {c : BCall} (hk : c.Known fam)
    (hn : ∀ q m ats, a.node q = some (.array m ats) → ∀ env, fam env → m.compressor.enabled env.features = true) :
    ∀ q m ats, (c.abs md fill a).2.node q = some (.array m ats) →
      ∀ env, fam env → m.compressor.enabled env.features = true := by
  have put : ∀ (p : List Str) (n : AbsNode),
      (∀ m ats, n = .array m ats → ∀ env, fam env → m.compressor.enabled env.features = true) →
      ∀ q m ats, (a.put p n).node q = some (.array m ats) → ∀ env, fam env → m.compressor.enabled env.features = true := by
    intro p n h1 q m ats e
    simp only [AbsHier.put] at e
    split at e
    · exact h1 m ats (Option.some.inj e)
    · exact hn q m ats e
  cases c with
  | call c =>
    cases c with
    | createGroup p =>
      simp only [BCall.abs, HCall.abs]
      split
      · exact put _ _ (by simp)
      · exact hn
      · exact hn
    | createArray p m =>
      simp only [BCall.abs, HCall.abs]
      split
      · refine put _ _ ?_
        intro m' ats e
        simp only [AbsNode.array.injEq] at e
        rw [← e.1]
        exact hk
      · exact hn
    | setAttributes p b =>
      simp only [BCall.abs, HCall.abs]
      split
      · exact hn
      · exact put _ _ (by simp)
      · rename_i m ats e
        refine put _ _ ?_
        intro m' ats' e'
        simp only [AbsNode.array.injEq] at e'
        rw [← e'.1]
        exact hn _ _ _ e
    | remove p =>
      intro q m ats e
      simp only [BCall.abs, HCall.abs] at e
      split at e
      · simp at e
      · exact hn q m ats e
    | writeChunk p t c => exact hn
    | deleteChunk p pos => exact hn
    | nodeExists p => exact hn
    | arrayExists p => simp only [BCall.abs, HCall.abs]; split <;> exact hn
    | getArrayMetadata p => simp only [BCall.abs, HCall.abs]; split <;> exact hn
    | listAttributes p => simp only [BCall.abs, HCall.abs]; split <;> exact hn
    | readChunk p t pos => exact hn
  | readBox p t b => exact hn
  | writeBox p t offset array => exact hn

theorem mResults_of_holds (hT : Together md fam) (hb : Plain (segs h.base))
    (hsfx : GoodSuffix h.entry) (hdot : '.' ∉ stripDot h.entry.metadataKeySuffix)
    (hs : ∀ q, GoodSep (md q).separator) {fill : List Str → (t : RsType) → El t} (calls : List (Env × BCall))
    {a : AbsHier} {fs : Fs} (hh : ∀ env, fam env → Holds env h md a fs) (hw : Written h fam md fs)
    (hn : ∀ q m ats, a.node q = some (.array m ats) → ∀ env, fam env → m.compressor.enabled env.features = true)
    (hok : ∀ x ∈ calls, fam x.1 ∧ x.2.Ok x.1 h md fill ∧ x.2.Known fam) :
    mResults h md calls fs = bAbsResults md fill (calls.map (·.2)) a := by
  induction calls generalizing a fs with
  | nil => rfl
  | cons x xs ih =>
    obtain ⟨env, c⟩ := x
    obtain ⟨he, hc, hk⟩ := hok _ (List.mem_cons_self ..)
    dsimp only at he hc hk
    obtain ⟨h1, h2⟩ := bStep (hT.lawful env he) hb hsfx hdot hs (hh env he) c hc
    have hw' := bCall_keeps he (hT.lawful env he) hb hsfx hdot hs (hh env he) c hc hw
    have hn' := known_step (md := md) (fill := fill) hk hn
    rw [mResults, List.map_cons, bAbsResults, h1]
    rw [ih (fun env' he' => h2.other hT he he' hb hs hw' fun q m ats e => hn' q m ats e env' he') hw' hn'
      fun x hx => hok x (List.mem_cons_of_mem _ hx)]

end

/-- **C106.** Programs on machines of different byte order, built with different features and compression
libraries, share a hierarchy: in a directory without a hierarchy, every history of calls, each made by any one of
them, gives the results that it gives on the one map of C81, provided that the programs read each other's
compressed data and that arrays are created with compressors that all of them have. -/
theorem C106 (fam : Env → Prop) (h : Hier) (md : List Str → ArrayMetadata) (fill : List Str → (t : RsType) → El t)
    (calls : List (Env × BCall)) (fs : Fs) (hwf : fs.WF) (hT : Together md fam) (hb : Plain (segs h.base))
    (hsfx : GoodSuffix h.entry) (hdot : '.' ∉ stripDot h.entry.metadataKeySuffix)
    (hs : ∀ q, GoodSep (md q).separator) (hf : FreshDir h fs)
    (hok : ∀ x ∈ calls, fam x.1 ∧ x.2.Ok x.1 h md fill ∧ x.2.Known fam) :
    mResults h md calls fs = bAbsResults md fill (calls.map (·.2)) AbsHier.empty := by
  refine mResults_of_holds hT hb hsfx hdot hs calls (fun env _ => .fresh hb hs hwf hf) ?_ (by simp [AbsHier.empty]) hok
  intro p pos hp b hc
  have : fs.get (h.loc (chunkKey p (md (segs p)) pos)) = none := by
    rw [Hier.loc, segs_chunkKey]
    exact hf.1 _ _ rfl (by simp) (by simp)
  rw [Fs.content, this] at hc
  simp at hc

/-- What a build without the compressor of an array sees: the node is there and its attributes can be listed, but it
is not an array, has no metadata, and nothing can be created in its place. -/
theorem C106_unknown (env env' : Env) (hj : env.json = env'.json) (h : Hier) (path : Str) (m : ArrayMetadata) (fs : Fs)
    (hwf : fs.WF) (hb : Plain (segs h.base)) (hs : GoodSuffix h.entry) (hp : Plain (segs path))
    (hm : (getArrayMetadata env h path fs).1 = .ok m) (hx : m.compressor.enabled env'.features = false) :
    (getArrayMetadata env' h path fs).1 = .err .json ∧
    (nodeExists h path fs).1 = .ok true ∧
    (arrayExists env h path fs).1 = .ok true ∧ (arrayExists env' h path fs).1 = .ok false ∧
    listAttributes env' h path fs = listAttributes env h path fs ∧
    createGroup env' h path fs = (.err .alreadyExists, fs) ∧
    ∀ m', createArray env' h path m' fs = (.err .alreadyExists, fs) := by
  have hro := getArrayMetadata_ro env h path fs
  have hro' := getArrayMetadata_ro env' h path fs
  have hg : (getArrayMetadata env' h path fs).1 = .err .json := by
    unfold getArrayMetadata at hm ⊢
    rw [M.bind_apply] at hm ⊢
    cases hs : storeGet h (arrayMetadataKey h.entry path) fs with
    | mk r fs1 =>
      rw [hs] at hm
      cases r with
      | err e => simp at hm
      | panic => simp at hm
      | ok v =>
        cases v with
        | none => simp [Outcome.ofOption] at hm
        | some b =>
          simp only [Outcome.ofOption, M.bind_apply, M.lift_apply] at hm ⊢
          unfold parseArrayMetadata at hm ⊢
          rw [← hj]
          cases hr : env.json.raw b with
          | none => simp [hr, Outcome.ofOption] at hm
          | some j =>
            simp only [hr, Outcome.ofOption, Outcome.bind_ok, Outcome.bind_eq_ok, Outcome.pure_def, Outcome.ok.injEq] at hm ⊢
            obtain ⟨m', h1, _, _, rfl⟩ := hm
            rw [ArrayMetadata.fromJson_other h1, hx]
            rfl
  have hdoc : (arrayDoc h fs path).isSome = true := by
    cases hd : arrayDoc h fs path with
    | some b => rfl
    | none =>
      simp [getArrayMetadata, storeGet_array hwf hb hs hp, hd, Outcome.ofOption] at hm
  have hne : nodeExists h path fs = (.ok true, fs) := by
    simp [nodeExists, storeExists_array hwf hb hs hp, hdoc]
  refine ⟨hg, by rw [hne], ?_, ?_, ?_, ?_, fun m' => ?_⟩
  · rw [(arrayExists_of hne).1 m (Prod.ext hm hro)]
  · rw [(arrayExists_of (env := env') hne).2 .json (Prod.ext hg hro')]
  · unfold listAttributes
    rw [hj]
  · rw [createGroup_eq hwf hb hs hp, hdoc]; rfl
  · rw [createArray_eq hwf hb hs hp, hdoc]; simp

/-! ## A concrete case -/

/-- A compressor that puts a byte in front of the data. -/
def Demo.tagged (b : Byte) : Codec where
  encode segs := (b :: segs.flatten, .ok ())
  decode bs := .ok ⟨bs.tail, none⟩

/-- A little-endian machine; its build has gzip only. -/
def Demo.little : Env :=
  { Demo.envJ with native := .little, features := ⟨false, true, false, false, false⟩, codecs := fun _ => Demo.tagged 0 }

/-- A big-endian machine; its build has every compressor and other compression libraries. -/
def Demo.big : Env :=
  { Demo.envJ with
    native := .big, features := ⟨true, true, true, true, true⟩, codecs := fun _ => Demo.tagged 1
    overflowChecks := !Demo.envJ.overflowChecks }

/-- A build without compressors. -/
def Demo.bare : Env := { Demo.big with features := ⟨false, false, false, false, false⟩ }

/-- The array of the demonstrations, compressed. -/
def Demo.arrGz : ArrayMetadata := { Demo.arr with compressor := .gzip 5 }

theorem Demo.together : Together (fun _ => Demo.arrGz) (fun e => e = Demo.little ∨ e = Demo.big) where
  json := by rintro _ _ (rfl | rfl) (rfl | rfl) <;> rfl
  lawful := by rintro _ (rfl | rfl) <;> exact jsonText_lawful
  codecs := by rintro _ _ (rfl | rfl) (rfl | rfl) q segs _ <;> rfl

/-- The machines write and read the array in turns. -/
def Demo.turns : List (Env × BCall) :=
  [(Demo.little, .call (.createArray Demo.path Demo.arrGz)), (Demo.big, .call (.getArrayMetadata Demo.path)),
   (Demo.big, .writeBox Demo.path .u16 [1] ⟨[3], fun i => BitVec.ofNat 16 (10 + i.headD 0)⟩),
   (Demo.little, .writeBox str!"a/b" .u16 [2] ⟨[1], fun _ => (777 : BitVec 16)⟩),
   (Demo.big, .readBox Demo.path .u16 ⟨[0], [5]⟩), (Demo.little, .readBox Demo.path .u16 ⟨[0], [5]⟩)]

theorem Demo.boxOkGz {env : Env} {o w : Nat} (hw : 0 < w) (ho : o < 5) :
    BoxOk env Demo.arrGz .u16 (El.default .u16) ⟨[o], [w]⟩ where
  type := ⟨_, rfl, rfl⟩
  fill := by rfl
  dims := rfl
  some := by decide
  pos := by decide
  small := by decide
  offset := rfl
  shape := rfl
  meets := ⟨[o], ⟨ho, trivial⟩, ⟨⟨Nat.le_refl _, by omega⟩, trivial⟩⟩

theorem Demo.turns_ok : ∀ x ∈ Demo.turns, (x.1 = Demo.little ∨ x.1 = Demo.big) ∧
    x.2.Ok x.1 Demo.hier (fun _ => Demo.arrGz) Demo.fills ∧ x.2.Known (fun e => e = Demo.little ∨ e = Demo.big) := by
  have hp : ∀ {p : Str}, (segs p).all (fun s => decide (s = str!"a" ∨ s = str!"b")) = true → OrdinaryPath Demo.hier p :=
    Demo.ordinaryPath
  have hl : ∀ b, (Demo.tagged b).Lawful := fun b segs _ => rfl
  have hf : Faithful Demo.little.features Demo.little.json.floats Demo.arrGz :=
    { shape := by simp [Demo.arrGz, Demo.arr]
      chunkShape := by simp [Demo.arrGz, Demo.arr]
      core := by simp [Demo.arrGz, Demo.arr, TypeFaithful]
      fallback := by simp [Demo.arrGz, Demo.arr]
      fill := by simp [Demo.arrGz, Demo.arr]
      exts := by simp [Demo.arrGz, Demo.arr]
      attrs := by simp [Demo.arrGz, Demo.arr, Json.canon, Json.canonObj]
      comp := by simp [Demo.arrGz, Demo.arr, Demo.little, CompressionType.WellTyped, CompressionType.enabled] }
  simp only [Demo.turns, List.forall_mem_cons, BCall.Ok, HCall.Ok]
  refine ⟨⟨.inl trivial, ⟨hp (by decide), hf⟩, ?_⟩, ⟨.inr trivial, hp (by decide), trivial⟩,
    ⟨.inr trivial, ⟨hp (by decide), Demo.boxOkGz (o := 1) (w := 3) (by decide) (by decide), hl 1, fun _ => rfl⟩, trivial⟩,
    ⟨.inl trivial, ⟨hp (by decide), Demo.boxOkGz (o := 2) (w := 1) (by decide) (by decide), hl 0, fun _ => rfl⟩, trivial⟩,
    ⟨.inr trivial, ⟨hp (by decide), Demo.boxOkGz (o := 0) (w := 5) (by decide) (by decide)⟩, trivial⟩,
    ⟨.inl trivial, ⟨hp (by decide), Demo.boxOkGz (o := 0) (w := 5) (by decide) (by decide)⟩, trivial⟩, by simp⟩
  rintro _ (rfl | rfl) <;> rfl

/-- The history meets the hypotheses, and its results are these. -/
example : mResults Demo.hier (fun _ => Demo.arrGz) Demo.turns Demo.emptyFs =
    [.plain (.unit (.ok ())), .plain (.metadata (.ok (Demo.arrGz, fun _ => none))), .plain (.unit (.ok ())),
     .plain (.unit (.ok ())), .box (.ok ([5], ⟨.u16, ([0, 10, 777, 12, 0] : List (BitVec 16))⟩)),
     .box (.ok ([5], ⟨.u16, ([0, 10, 777, 12, 0] : List (BitVec 16))⟩))] := by
  rw [C106 _ Demo.hier (fun _ => Demo.arrGz) Demo.fills Demo.turns Demo.emptyFs Demo.emptyFs_wf Demo.together
    (by decide) (by unfold GoodSuffix; decide) (by decide) (fun _ => .inl rfl) Demo.fresh Demo.turns_ok]
  rfl

/-- The build without compressors does not see the array. -/
example : ∃ fs, fs.WF ∧ (getArrayMetadata Demo.little Demo.hier Demo.path fs).1 = .ok Demo.arrGz ∧
    (getArrayMetadata Demo.bare Demo.hier Demo.path fs).1 = .err .json ∧
    (arrayExists Demo.little Demo.hier Demo.path fs).1 = .ok true ∧
    (arrayExists Demo.bare Demo.hier Demo.path fs).1 = .ok false := by
  have hb : Plain (segs Demo.hier.base) := by decide
  have hs : GoodSuffix Demo.hier.entry := by unfold GoodSuffix; decide
  have hp : Plain (segs Demo.path) := by decide
  have hw := (NodeOp.run_frame (env := Demo.little) (op := .createArray Demo.path Demo.arrGz) Demo.emptyFs_wf hb hs hp).1
  have hg : (getArrayMetadata Demo.little Demo.hier Demo.path
      (createArray Demo.little Demo.hier Demo.path Demo.arrGz Demo.emptyFs).2).1 = .ok Demo.arrGz := by
    set_option maxRecDepth 20000 in
    decide +kernel
  obtain ⟨h1, _, h3, h4, _⟩ := C106_unknown Demo.little Demo.bare rfl Demo.hier Demo.path Demo.arrGz _ hw hb hs hp hg rfl
  exact ⟨_, hw, hg, h1, h3, h4⟩

end Zarr
