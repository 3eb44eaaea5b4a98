import Verif.Lemmas.Nodes
/-!
# Hierarchies with ordinary names

The files of a hierarchy whose nodes have ordinary names never stand in each other's way: no file's
location lies above another's.
-/

namespace Zarr

open Spec

/-- The name of a chunk file or of the first directory on the way to one: `c`, or `c` and a digit. -/
def Spec.ChunkLike (s : Str) : Prop := s = str!"c" ∨ ∃ d r, s = 'c' :: d :: r ∧ (48 ≤ d.toNat ∧ d.toNat ≤ 57)

/-- A name that is neither `..`, nor like that of a chunk, nor like that of a document. -/
structure Spec.OrdinaryName (h : Hier) (s : Str) : Prop where
  up : s ≠ str!".."
  chunk : ¬ ChunkLike s
  array : ¬ ('.' :: str!"array" ++ '.' :: stripDot h.entry.metadataKeySuffix) <:+ s
  group : ¬ ('.' :: str!"group" ++ '.' :: stripDot h.entry.metadataKeySuffix) <:+ s

/-- A path made of ordinary names. -/
def Spec.OrdinaryPath (h : Hier) (p : Str) : Prop := ∀ s ∈ segs p, OrdinaryName h s

theorem Spec.OrdinaryPath.plain {h : Hier} {p : Str} (hp : OrdinaryPath h p) : Plain (segs p) :=
  fun hm => (hp _ hm).up rfl

/-- The locations of the files of a hierarchy with ordinary names, where `md` gives the metadata used
for the chunks of each path. -/
inductive Spec.FileLoc (h : Hier) (md : List Str → ArrayMetadata) : Loc → Prop
  | array (p : Str) : OrdinaryPath h p → FileLoc h md (docLoc h str!"array" p)
  | group (p : Str) : OrdinaryPath h p → FileLoc h md (docLoc h str!"group" p)
  | chunk (p : Str) (pos : List Nat) : OrdinaryPath h p → pos.length = (md (segs p)).shape.length →
      FileLoc h md (h.loc (chunkKey p (md (segs p)) pos))

/-- Nothing stands in the way of any of these files. -/
def Spec.Clear (h : Hier) (md : List Str → ArrayMetadata) (fs : Fs) : Prop := ∀ l, FileLoc h md l → Writable fs l

theorem chunkTail_like (sep : Str) (pos : List Nat) (hs : GoodSep sep) :
    ∃ s t, chunkTail sep pos = s :: t ∧ ChunkLike s := by
  have hdig : ∀ n (r : Str), ChunkLike ('c' :: (dec n ++ r)) := by
    intro n r
    obtain ⟨d, r', hd, hdig⟩ := dec_cons n
    rw [hd]
    exact .inr ⟨d, r' ++ r, rfl, by simpa [isDigit] using hdig⟩
  rcases hs with rfl | ⟨_, hs⟩
  · rw [chunkTail_slash]
    cases pos with
    | nil => exact ⟨_, _, rfl, .inl rfl⟩
    | cons c cs => exact ⟨_, _, rfl, by simpa using hdig c []⟩
  · rw [chunkTail_noslash hs]
    cases pos with
    | nil => exact ⟨_, _, rfl, .inl rfl⟩
    | cons c cs =>
      refine ⟨_, _, rfl, ?_⟩
      cases cs with
      | nil => simpa [joinCoords] using hdig c []
      | cons d ds => simpa [joinCoords] using hdig c _

theorem chunkTail_length {sep : Str} (hs : GoodSep sep) {pos pos' : List Nat} (hl : pos.length = pos'.length) :
    (chunkTail sep pos).length = (chunkTail sep pos').length := by
  rcases hs with rfl | ⟨_, hs⟩
  · rw [chunkTail_slash, chunkTail_slash]
    cases pos with
    | nil => cases pos' with
      | nil => rfl
      | cons c cs => simp at hl
    | cons c cs => cases pos' with
      | nil => simp at hl
      | cons d ds => simpa using hl
  · rw [chunkTail_noslash hs, chunkTail_noslash hs]; rfl

theorem docLoc_split (h : Hier) (kind p : Str) : ∃ i a, str!"meta" :: str!"root" :: segs p = i ++ [a] ∧
    docLoc h kind p = segs h.base ++ (i ++ [a ++ ('.' :: kind ++ '.' :: stripDot h.entry.metadataKeySuffix)]) := by
  have hne : str!"meta" :: str!"root" :: segs p ≠ [] := by simp
  refine ⟨_, _, (List.dropLast_concat_getLast hne).symm, ?_⟩
  unfold docLoc appendName
  simp only [List.cons_append, List.nil_append]
  rw [List.getLastD_eq_getLast?, List.getLast?_eq_some_getLast hne]
  rfl

/-- No document lies above another. -/
theorem docLoc_antichain {h : Hier} {kind kind' p p' : Str}
    (hord : ∀ s ∈ segs p', ¬ ('.' :: kind ++ '.' :: stripDot h.entry.metadataKeySuffix) <:+ s)
    (hpre : docLoc h kind p <+: docLoc h kind' p') : docLoc h kind p = docLoc h kind' p' := by
  obtain ⟨i, a, e1, e2⟩ := docLoc_split h kind p
  obtain ⟨i', a', e1', e2'⟩ := docLoc_split h kind' p'
  rw [e2, e2'] at hpre ⊢
  rw [List.prefix_append_right_inj] at hpre
  rcases Fs.prefix_concat.mp hpre with h1 | h1
  · exfalso
    have hm : a ++ ('.' :: kind ++ '.' :: stripDot h.entry.metadataKeySuffix) ∈ str!"meta" :: str!"root" :: segs p' := by
      rw [e1']
      exact List.mem_append_left _ (h1.subset (by simp))
    have hdot : '.' ∈ a ++ ('.' :: kind ++ '.' :: stripDot h.entry.metadataKeySuffix) := by simp
    rcases List.mem_cons.mp hm with h2 | h2
    · rw [h2] at hdot; exact absurd hdot (by decide)
    · rcases List.mem_cons.mp h2 with h2 | h2
      · rw [h2] at hdot; exact absurd hdot (by decide)
      · exact hord _ h2 (List.suffix_append _ _)
  · rw [h1]

theorem chunkLoc_antichain {h : Hier} {md : List Str → ArrayMetadata} {p p' : Str} {pos pos' : List Nat}
    (hs : ∀ q, GoodSep (md q).separator) (hp : OrdinaryPath h p) (hp' : OrdinaryPath h p')
    (hl : pos.length = (md (segs p)).shape.length) (hl' : pos'.length = (md (segs p')).shape.length)
    (hpre : h.loc (chunkKey p (md (segs p)) pos) <+: h.loc (chunkKey p' (md (segs p')) pos')) :
    h.loc (chunkKey p (md (segs p)) pos) = h.loc (chunkKey p' (md (segs p')) pos') := by
  unfold Hier.loc at hpre ⊢
  rw [List.prefix_append_right_inj] at hpre
  rw [segs_chunkKey, segs_chunkKey] at hpre ⊢
  simp only [List.cons_prefix_cons, true_and] at hpre
  have key : segs p = segs p' := by
    rcases prefix_append_cases hpre with h1 | ⟨r, h1, h2⟩
    · -- the whole of the shorter location lies within the longer path
      exfalso
      obtain ⟨s, t, e, hc⟩ := chunkTail_like (md (segs p)).separator pos (hs _)
      rw [e] at h1
      exact (hp' s (h1.subset (by simp))).chunk hc
    · rcases prefix_append_cases (⟨_, h1⟩ : segs p <+: segs p' ++ r) with h3 | ⟨r', h3, h4⟩
      · obtain ⟨u, hu⟩ := h3
        cases u with
        | nil => simpa using hu
        | cons x xs =>
          exfalso
          rw [← hu, List.append_assoc] at h1
          have h1 := List.append_cancel_left h1
          obtain ⟨s, t, e, hc⟩ := chunkTail_like (md (segs p)).separator pos (hs _)
          rw [e] at h1
          simp only [List.cons_append, List.cons.injEq] at h1
          exact (hp' s (by rw [← hu, h1.1]; simp)).chunk hc
      · cases r' with
        | nil => simpa using h3
        | cons x xs =>
          exfalso
          obtain ⟨s, t, e, hc⟩ := chunkTail_like (md (segs p')).separator pos' (hs _)
          have h5 := h4.trans h2
          rw [e, List.cons_prefix_cons] at h5
          exact (hp s (by rw [h3, ← h5.1]; simp)).chunk hc
  rw [← key] at hl' ⊢
  rw [← key, List.prefix_append_right_inj] at hpre
  rw [hpre.eq_of_length (chunkTail_length (hs _) (hl.trans hl'.symm))]

/-- No file of the hierarchy lies above another. -/
theorem FileLoc.antichain {h : Hier} {md : List Str → ArrayMetadata} (hs : ∀ q, GoodSep (md q).separator)
    {l l' : Loc} (hl : FileLoc h md l) (hl' : FileLoc h md l') (hpre : l <+: l') : l = l' := by
  have hmix : ∀ kind p q m pos, ¬ docLoc h kind p <+: h.loc (chunkKey q m pos) ∧
      ¬ h.loc (chunkKey q m pos) <+: docLoc h kind p := by
    intro kind p q m pos
    obtain ⟨i, a, e1, e2⟩ := docLoc_split h kind p
    have hhead : ∃ r, docLoc h kind p = segs h.base ++ str!"meta" :: r := by
      rw [e2]
      cases i with
      | nil => simp at e1
      | cons x xs =>
        simp only [List.cons_append, List.cons.injEq] at e1
        exact ⟨_, by rw [← e1.1]; rfl⟩
    obtain ⟨r, hr⟩ := hhead
    rw [hr, Hier.loc, segs_chunkKey]
    constructor
    · rw [List.prefix_append_right_inj, List.cons_prefix_cons]
      exact fun hh => absurd hh.1 (by decide)
    · rw [List.prefix_append_right_inj, List.cons_prefix_cons]
      exact fun hh => absurd hh.1 (by decide)
  cases hl with
  | array p hp =>
    cases hl' with
    | array p' hp' => exact docLoc_antichain (fun s hs => (hp' s hs).array) hpre
    | group p' hp' => exact docLoc_antichain (fun s hs => (hp' s hs).array) hpre
    | chunk p' pos' hp' hr => exact absurd hpre (hmix ..).1
  | group p hp =>
    cases hl' with
    | array p' hp' => exact docLoc_antichain (fun s hs => (hp' s hs).group) hpre
    | group p' hp' => exact docLoc_antichain (fun s hs => (hp' s hs).group) hpre
    | chunk p' pos' hp' hr => exact absurd hpre (hmix ..).1
  | chunk p pos hp hr =>
    cases hl' with
    | array p' hp' => exact absurd hpre (hmix ..).2
    | group p' hp' => exact absurd hpre (hmix ..).2
    | chunk p' pos' hp' hr' => exact chunkLoc_antichain hs hp hp' hr hr' hpre

/-- Writing one of the files leaves the way to all clear. -/
theorem Clear.set {h : Hier} {md : List Str → ArrayMetadata} {fs fs' : Fs} (hs : ∀ q, GoodSep (md q).separator)
    (hc : Clear h md fs) {p : Loc} (hp : FileLoc h md p) {b : Bytes}
    (hget : ∀ l, fs'.get l = setSpec fs p b l) : Clear h md fs' := by
  intro l hl
  obtain ⟨c1, c2⟩ := hc l hl
  constructor
  · intro q hq hne b'
    rw [hget, setSpec]
    by_cases e : q = p
    · exact absurd (FileLoc.antichain hs (e ▸ hp) hl hq) hne
    · rw [if_neg e]
      split
      · simp
      · exact c1 q hq hne b'
  · rw [hget, setSpec]
    by_cases e : l = p
    · rw [if_pos e]; simp
    · rw [if_neg e, if_neg]
      · exact c2
      · exact fun hh => e (FileLoc.antichain hs hl hp hh.1)

/-- Removing entries, or changing the content of files, leaves the way clear. -/
theorem Clear.mono {h : Hier} {md : List Str → ArrayMetadata} {fs fs' : Fs} (hc : Clear h md fs)
    (hget : ∀ l, fs'.get l = fs.get l ∨ fs'.get l = none ∨ ∃ b b', fs.get l = some (.file b) ∧
      fs'.get l = some (.file b')) : Clear h md fs' := by
  intro l hl
  obtain ⟨c1, c2⟩ := hc l hl
  constructor
  · intro q hq hne b
    rcases hget q with e | e | ⟨b1, b2, e1, _⟩
    · rw [e]; exact c1 q hq hne b
    · rw [e]; simp
    · exact absurd e1 (c1 q hq hne b1)
  · rcases hget l with e | e | ⟨b1, b2, _, e2⟩
    · rw [e]; exact c2
    · rw [e]; simp
    · rw [e2]; simp

/-- An empty hierarchy directory: nothing but perhaps the entry point document below it, and no file
above it. -/
def Spec.FreshDir (h : Hier) (fs : Fs) : Prop :=
  (∀ l r, l = segs h.base ++ r → r ≠ [] → r ≠ [str!"zarr.json"] → fs.get l = none) ∧
  (∀ l b, l <+: segs h.base → fs.get l ≠ some (.file b))

theorem FileLoc.below {h : Hier} {md : List Str → ArrayMetadata} {l : Loc} (hl : FileLoc h md l) :
    ∃ x r, l = segs h.base ++ x :: r ∧ (x = str!"meta" ∨ x = str!"data") ∧ r ≠ [] := by
  have hdoc : ∀ kind p, ∃ x r, docLoc h kind p = segs h.base ++ x :: r ∧ (x = str!"meta" ∨ x = str!"data") ∧ r ≠ [] := by
    intro kind p
    obtain ⟨i, a, e1, e2⟩ := docLoc_split h kind p
    cases i with
    | nil => simp at e1
    | cons x xs =>
      simp only [List.cons_append, List.cons.injEq] at e1
      exact ⟨_, _, by rw [e2]; rfl, .inl e1.1.symm, by simp⟩
  cases hl with
  | array p hp => exact hdoc _ p
  | group p hp => exact hdoc _ p
  | chunk p pos hp hr =>
    exact ⟨str!"data", _, by rw [Hier.loc, segs_chunkKey], .inr rfl, by simp⟩

theorem Clear.fresh {h : Hier} {md : List Str → ArrayMetadata} {fs : Fs} (hf : FreshDir h fs) : Clear h md fs := by
  intro l hl
  obtain ⟨x, r, rfl, hx, hr⟩ := FileLoc.below hl
  have hz : ∀ t : List Str, x :: t ≠ [str!"zarr.json"] := by
    intro t
    rcases hx with rfl | rfl <;> simp
  constructor
  · intro q hq _ b
    rcases prefix_append_cases hq with h1 | ⟨t, rfl, h2⟩
    · exact hf.2 q b h1
    · cases t with
      | nil => simpa using hf.2 (segs h.base) b List.prefix_rfl
      | cons y ys =>
        rw [List.cons_prefix_cons] at h2
        rw [hf.1 _ _ rfl (by simp) (by rw [h2.1]; exact hz ys)]
        simp
  · rw [hf.1 _ _ rfl (by simp) (hz r)]; simp

end Zarr
