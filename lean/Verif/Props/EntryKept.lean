import Verif.Props.Open
/-!
# What `open_or_create` does to the files there are: C112
-/

namespace Zarr

open Spec

/-! ## `create_dir_all` on any path -/

theorem Fs.mkdir_keeps {fs fs' : Fs} {p : List Str} (h : fs.mkdir p = .ok fs') {l : Loc} {n : Node}
    (hn : fs.get l = some n) : fs'.get l = some n := by
  unfold Fs.mkdir at h
  split at h
  · rename_i k hk
    split at h
    · simp at h
    · rename_i hg
      simp only [Outcome.ok.injEq] at h
      rw [← h, Fs.get_put, if_neg (by intro e; subst e; rw [hg] at hn; simp at hn)]
      exact hn
  · simp at h
  · simp at h

/-- `create_dir_all` takes nothing away, whatever the path and the result. -/
theorem Fs.mkdirAll_keeps (p : List Str) (fs : Fs) {l : Loc} {n : Node} (hn : fs.get l = some n) :
    (Fs.mkdirAll p fs).2.get l = some n := by
  induction p using Fs.list_concat_induction with
  | h0 => simp only [Fs.mkdirAll, List.reverse_nil, Fs.mkdirAllRev]; split <;> exact hn
  | h1 p s ih =>
    rw [Fs.mkdirAll_concat]
    split
    · rename_i fs' hm; exact Fs.mkdir_keeps hm hn
    · exact hn
    · split
      · split
        · rename_i fs1 h1
          rw [h1] at ih
          split
          · rename_i fs2 h2; exact Fs.mkdir_keeps h2 ih
          · exact ih
          · split <;> exact ih
        · exact ih
      · split <;> exact hn

/-- `create_dir_all` makes no files. -/
theorem Fs.mkdirAll_files (p : List Str) (fs : Fs) {l : Loc} {c : Bytes}
    (hn : (Fs.mkdirAll p fs).2.get l = some (.file c)) : fs.get l = some (.file c) := by
  cases hg : fs.get l with
  | some n => rw [Fs.mkdirAll_keeps p fs hg] at hn; exact hn
  | none =>
    exfalso
    have one : ∀ (g g' : Fs) (q : List Str), g.mkdir q = .ok g' → g'.get l = some (.file c) →
        g.get l = some (.file c) := by
      intro g g' q h h2
      unfold Fs.mkdir at h
      split at h
      · split at h
        · simp at h
        · simp only [Outcome.ok.injEq] at h
          rw [← h, Fs.get_put] at h2
          split at h2
          · simp at h2
          · exact h2
      · simp at h
      · simp at h
    have all : ∀ p : List Str, (Fs.mkdirAll p fs).2.get l = some (.file c) → fs.get l = some (.file c) := by
      intro p
      induction p using Fs.list_concat_induction with
      | h0 =>
        intro h
        simp only [Fs.mkdirAll, List.reverse_nil, Fs.mkdirAllRev] at h
        split at h <;> exact h
      | h1 p s ih =>
        rw [Fs.mkdirAll_concat]
        split
        · rename_i fs' hm; exact one _ _ _ hm
        · exact id
        · split
          · split
            · rename_i fs1 h1
              rw [h1] at ih
              split
              · rename_i fs2 h2; exact fun h => ih (one _ _ _ h2 h)
              · exact ih
              · split <;> exact ih
            · exact ih
          · split <;> exact id
    rw [all p hn] at hg
    simp at hg

theorem walk_concat (fs : Fs) (p q : List Str) (cur : Loc) :
    fs.walk cur (p ++ q) = fs.walk cur p >>= fun l => fs.walk l q := by
  induction p generalizing cur with
  | nil => rfl
  | cons x p ih =>
    simp only [List.cons_append, Fs.walk]
    cases fs.get cur with
    | none => rfl
    | some n => cases n <;> first | rfl | exact ih _

/-- A path that begins with the name `A` of a directory can begin with its location instead. -/
theorem locate_swap {fs : Fs} (hwf : fs.WF) {A : List Str} {L : Loc} (hA : fs.locate A = .ok L)
    (hd : fs.get L = some .dir) (hL : Plain L) (B : List Str) :
    fs.locate (A ++ B) = fs.locate (L ++ B) := by
  have h1 : fs.locate L = .ok L := Fs.locate_of_get hwf hL hd
  unfold Fs.locate at *
  rw [walk_concat, walk_concat, hA, h1]

theorem walk_result_plain {fs : Fs} (p : List Str) (cur l : Loc) (hc : Plain cur)
    (h : fs.walk cur p = .ok l) : Plain l := by
  induction p generalizing cur with
  | nil => simp only [Fs.walk, Outcome.ok.injEq] at h; rw [← h]; exact hc
  | cons s p ih =>
    simp only [Fs.walk] at h
    split at h
    · refine ih _ ?_ h
      split
      · exact fun hm => hc (List.dropLast_subset _ hm)
      · rename_i hs
        exact hc.append (by unfold Plain; simpa using fun e => hs e.symm)
    · simp at h
    · simp at h

/-! ## C112 -/

/-- The part of `base` up to its last `..` names a directory. -/
def Anchored (fs : Fs) (base : List Str) : Prop :=
  ∃ A B, base = A ++ B ∧ Plain B ∧ fs.isDir A = true

theorem openOrCreate_state (env : Env) (base : Str) (fs : Fs) :
    (openOrCreate env base fs).2 = (if fs.pathExists (segs (joinPath base entryPointKey))
      then fs else (createEntryPoint env base fs).2) := by
  unfold openOrCreate
  by_cases h : fs.pathExists (segs (joinPath base entryPointKey)) = true
  · simp only [h, if_true]
    have : readEntryPointMetadata env base fs = ((readEntryPointMetadata env base fs).1, fs) := rfl
    rw [this]
    cases (readEntryPointMetadata env base fs).1 <;> rfl
  · simp only [h, Bool.false_eq_true, if_false]
    generalize createEntryPoint env base fs = r
    obtain ⟨r1, r2⟩ := r
    cases r1 <;> rfl

/-- **C112 (partial), any base path.** Whatever the base path and the result, no file but `zarr.json`
in the base directory is changed or made, and no directory is lost. -/
theorem C112_partial_others (env : Env) (base : Str) (fs : Fs) :
    (∀ l, fs.get l = some .dir → (openOrCreate env base fs).2.get l = some .dir) ∧
    (∀ l c, (openOrCreate env base fs).2.locate (segs base ++ [str!"zarr.json"]) ≠ .ok l →
      ((openOrCreate env base fs).2.get l = some (.file c) ↔ fs.get l = some (.file c))) := by
  rw [openOrCreate_state]
  split
  · exact ⟨fun _ h => h, fun _ _ _ => Iff.rfl⟩
  · unfold createEntryPoint
    have hk := fun l n => @Fs.mkdirAll_keeps (segs base) fs l n
    have hf := fun l c => @Fs.mkdirAll_files (segs base) fs l c
    generalize Fs.mkdirAll (segs base) fs = r at hk hf
    obtain ⟨r1, fs1⟩ := r
    simp only at hk hf
    cases r1 with
    | err e => exact ⟨fun l h => hk l _ h, fun l c _ => ⟨hf l c, hk l _⟩⟩
    | panic => exact ⟨fun l h => hk l _ h, fun l c _ => ⟨hf l c, hk l _⟩⟩
    | ok u =>
      simp only [segs_entryPoint]
      cases ho : Fs.openCreate (segs base ++ [str!"zarr.json"]) fs1 with
      | err e => exact ⟨fun l h => hk l _ h, fun l c _ => ⟨hf l c, hk l _⟩⟩
      | panic => exact ⟨fun l h => hk l _ h, fun l c _ => ⟨hf l c, hk l _⟩⟩
      | ok q =>
        obtain ⟨l0, fs2⟩ := q
        obtain ⟨h1, h2, h3⟩ := openCreate_ok ho
        simp only
        generalize hv : Node.file (overwrite _ _) = v
        have hdir : ∀ x, fs1.get x = some .dir → (fs2.put l0 v).get x = some .dir := by
          intro x hx
          have hxl : x ≠ l0 := by intro e; subst e; exact h2 hx
          rw [Fs.get_put, if_neg hxl, h3 x hxl]; exact hx
        refine ⟨fun l h => hdir l (hk l _ h), fun l c hl => ?_⟩
        have hne : l ≠ l0 := by
          intro e; subst e
          exact hl (walk_mono hdir _ _ _ h1)
        rw [Fs.get_put, if_neg hne, h3 l hne]
        exact ⟨hf l c, hk l _⟩

/-- **C112 (partial).** If the part of the base path up to its last `..` names a directory (in
particular if the base path has no `..` or is a directory itself), then `open_or_create` keeps every
file and directory there is, whatever it returns, and makes no file but `zarr.json` in the base
directory. Missing: other base paths, see `C112_violated`. -/
theorem C112_partial (env : Env) (base : Str) (fs : Fs) (hwf : fs.WF) (hb : Anchored fs (segs base)) :
    (∀ l n, fs.get l = some n → (openOrCreate env base fs).2.get l = some n) ∧
    (∀ l c, (openOrCreate env base fs).2.get l = some (.file c) → fs.get l = some (.file c) ∨
      (openOrCreate env base fs).2.locate (segs base ++ [str!"zarr.json"]) = .ok l) := by
  obtain ⟨o1, o2⟩ := C112_partial_others env base fs
  refine ⟨fun l n hn => ?_, fun l c hc => ?_⟩
  · cases n with
    | dir => exact o1 l hn
    | file c =>
      by_cases hl : (openOrCreate env base fs).2.locate (segs base ++ [str!"zarr.json"]) = .ok l
      · obtain ⟨A, B, hAB, hB, hA⟩ := hb
        obtain ⟨L, hloc, hdir⟩ : ∃ L, fs.locate A = .ok L ∧ fs.get L = some .dir := by
          have hA := of_decide_eq_true hA
          unfold Fs.node at hA
          cases h : fs.locate A with
          | ok L => rw [h] at hA; exact ⟨L, rfl, hA⟩
          | err e => rw [h] at hA; simp at hA
          | panic => rw [h] at hA; simp at hA
        have hL : Plain L := walk_result_plain A [] L (by decide) hloc
        have hBz : Plain (B ++ [str!"zarr.json"]) := hB.append (by decide)
        rw [hAB, List.append_assoc, Fs.locate, walk_concat, walk_mono o1 _ _ _ hloc] at hl
        have hlL := Fs.walk_plain_ok _ hBz _ _ hl
        have hres : fs.locate (segs base ++ [str!"zarr.json"]) = .ok l := by
          rw [hAB, List.append_assoc, locate_swap hwf hloc hdir hL, ← hlL]
          exact Fs.locate_of_get hwf (hlL ▸ hL.append hBz) hn
        have hex : fs.pathExists (segs (joinPath base entryPointKey)) = true := by
          simp [Fs.pathExists, Fs.node, segs_entryPoint, hres, hn]
        rw [openOrCreate_state, if_pos hex]
        exact hn
      · exact (o2 l c hl).mpr hn
  · by_cases hl : (openOrCreate env base fs).2.locate (segs base ++ [str!"zarr.json"]) = .ok l
    · exact .inr hl
    · exact .inl ((o2 l c hl).mp hc)

/-- **C112 is violated** for every hierarchy beside which a name `x` is free: `open_or_create` of
`…/x/../n`, where `…/n` is the hierarchy, does not find its `zarr.json` (there is no `x`), makes the
directory `x`, and then writes the default document over the one that is there, without truncating it. -/
theorem C112_violated (env : Env) (base : Str) (fs : Fs) (hwf : fs.WF) (P : Loc) (x n : Str) (b : Bytes)
    (hP : Plain P) (hx : x ≠ dotdot) (hn : n ≠ dotdot) (hbase : segs base = P ++ [x, dotdot, n])
    (hfree : fs.get (P ++ [x]) = none) (hdir : fs.get (P ++ [n]) = some .dir)
    (hdoc : fs.content (P ++ [n, str!"zarr.json"]) = some b)
    (hv : Compatible env EntryPointMetadata.default) :
    ∃ fs', openOrCreate env base fs = (.ok ⟨base, EntryPointMetadata.default⟩, fs') ∧
      fs'.content (P ++ [n, str!"zarr.json"]) =
        some (env.json.print EntryPointMetadata.default.toJson ++
          b.drop (env.json.print EntryPointMetadata.default.toJson).length) ∧
      (¬ env.json.print EntryPointMetadata.default.toJson <+: b →
        fs'.content (P ++ [n, str!"zarr.json"]) ≠ fs.content (P ++ [n, str!"zarr.json"])) := by
  have hfile : fs.get (P ++ [n] ++ [str!"zarr.json"]) = some (.file b) := by
    rw [Fs.content_eq_some] at hdoc
    simpa using hdoc
  have hPd : fs.get P = some .dir := hwf.parent _ _ _ hdir
  have hLP : fs.locate P = .ok P := Fs.locate_of_get hwf hP hPd
  have gone : ∀ q, q ≠ [] → fs.locate (P ++ [x] ++ q) = .err .notFound := by
    intro q hq
    obtain ⟨y, q, rfl⟩ := List.exists_cons_of_ne_nil hq
    have h1 : fs.walk [] P = .ok P := hLP
    rw [Fs.locate, walk_concat, walk_concat, h1]
    simp [Fs.walk, hPd, hx, hfree]
  have hex : fs.pathExists (segs (joinPath base entryPointKey)) = false := by
    have := gone [dotdot, n, str!"zarr.json"] (by simp)
    simp only [List.append_assoc, List.cons_append, List.nil_append] at this
    simp [Fs.pathExists, Fs.node, segs_entryPoint, hbase, this]
  -- the directory `x` is made, the rest is there
  have hlx : fs.locate (P ++ [x]) = .ok (P ++ [x]) := by
    have h1 : fs.walk [] P = .ok P := hLP
    rw [Fs.locate, walk_concat, h1]
    simp [Fs.walk, hPd, hx]
  have hget1 : ∀ l, (fs.put (P ++ [x]) .dir).get l = if l = P ++ [x] then some .dir else fs.get l :=
    fun l => Fs.get_put ..
  have hP1 : (fs.put (P ++ [x]) .dir).get P = some .dir := by
    rw [hget1, if_neg (by intro e; have := congrArg List.length e; simp at this)]; exact hPd
  have hn1 : (fs.put (P ++ [x]) .dir).get (P ++ [n]) = some .dir := by
    rw [hget1]; split
    · rfl
    · exact hdir
  have hz1 : (fs.put (P ++ [x]) .dir).get (P ++ [n] ++ [str!"zarr.json"]) = some (.file b) := by
    rw [hget1, if_neg (by intro e; have := congrArg List.length e; simp at this)]; exact hfile
  have hx1 : (fs.put (P ++ [x]) .dir).get (P ++ [x]) = some .dir := by rw [hget1]; simp
  have hLP1 : (fs.put (P ++ [x]) .dir).walk [] P = .ok P := by
    refine walk_mono (fun l h => ?_) _ _ _ hLP
    rw [hget1]; split
    · rfl
    · exact h
  have hmk : Fs.mkdirAll (segs base) fs = (.ok (), fs.put (P ++ [x]) .dir) := by
    have m1 : Fs.mkdirAll (P ++ [x]) fs = (.ok (), fs.put (P ++ [x]) .dir) := by
      rw [Fs.mkdirAll_concat]
      simp [Fs.mkdir, hlx, hfree]
    generalize fs.put (P ++ [x]) .dir = fs1 at *
    have l2 : fs1.locate (P ++ [x] ++ [dotdot]) = .ok P := by
      rw [Fs.locate, walk_concat, walk_concat, hLP1]
      simp [Fs.walk, hP1, hx, hx1]
    have l3 : fs1.locate (P ++ [x] ++ [dotdot] ++ [n]) = .ok (P ++ [n]) := by
      have l2 : fs1.walk [] (P ++ [x] ++ [dotdot]) = .ok P := l2
      rw [Fs.locate, walk_concat, l2]
      simp [Fs.walk, hP1, hn]
    have m2 : Fs.mkdirAll (P ++ [x] ++ [dotdot]) fs = (.ok (), fs1) := by
      have e : fs.mkdir (P ++ [x] ++ [dotdot]) = .err .notFound := by
        rw [Fs.mkdir, gone _ (by simp)]
      have e1 : fs1.mkdir (P ++ [x] ++ [dotdot]) = .err .alreadyExists := by
        rw [Fs.mkdir, l2]; simp [hP1]
      have i1 : fs1.isDir (P ++ [x] ++ [dotdot]) = true := by simp only [Fs.isDir, Fs.node, l2, hP1]; decide
      rw [Fs.mkdirAll_concat, e, m1]
      simp only [if_true, e1, i1]
    have m3 : Fs.mkdirAll (P ++ [x] ++ [dotdot] ++ [n]) fs = (.ok (), fs1) := by
      have e : fs.mkdir (P ++ [x] ++ [dotdot] ++ [n]) = .err .notFound := by
        rw [Fs.mkdir, List.append_assoc (P ++ [x]), gone _ (by simp)]
      have e1 : fs1.mkdir (P ++ [x] ++ [dotdot] ++ [n]) = .err .alreadyExists := by
        rw [Fs.mkdir, l3]; simp [hn1]
      have i1 : fs1.isDir (P ++ [x] ++ [dotdot] ++ [n]) = true := by
        simp only [Fs.isDir, Fs.node, l3, hn1]; decide
      rw [Fs.mkdirAll_concat, e, m2]
      simp only [if_true, e1, i1]
    rw [hbase]
    simpa using m3
  have hop : Fs.openCreate (segs base ++ [str!"zarr.json"]) (fs.put (P ++ [x]) .dir) =
      .ok (P ++ [n] ++ [str!"zarr.json"], fs.put (P ++ [x]) .dir) := by
    generalize fs.put (P ++ [x]) .dir = fs1 at *
    have l4 : fs1.locate (segs base ++ [str!"zarr.json"]) = .ok (P ++ [n] ++ [str!"zarr.json"]) := by
      have hz : ¬ str!"zarr.json" = dotdot := by decide
      rw [hbase, Fs.locate, walk_concat, walk_concat, hLP1]
      simp [Fs.walk, hP1, hx, hx1, hn, hn1, hz]
    rw [Fs.openCreate, l4]
    simp only [hz1]
  have hv' : env.versionReq (lastPiece EntryPointMetadata.default.zarrFormat) = some true := compatible_iff.mp hv
  refine ⟨(fs.put (P ++ [x]) .dir).put (P ++ [n] ++ [str!"zarr.json"])
    (.file (overwrite b (env.json.print EntryPointMetadata.default.toJson))), ?_, ?_, ?_⟩
  · rw [segs_entryPoint] at hex
    simp only [openOrCreate, hex, Bool.false_eq_true, if_false, createEntryPoint, hmk, segs_entryPoint, hop,
      hz1]
    simp [checkVersion, getVersion, hv']
  · rw [Fs.content_eq_some, show P ++ [n, str!"zarr.json"] = P ++ [n] ++ [str!"zarr.json"] by simp,
      Fs.get_put, if_pos rfl]
    rfl
  · intro hpre e
    have e2 : ((fs.put (P ++ [x]) .dir).put (P ++ [n] ++ [str!"zarr.json"])
        (.file (overwrite b (env.json.print EntryPointMetadata.default.toJson)))).content
        (P ++ [n, str!"zarr.json"]) =
        some (overwrite b (env.json.print EntryPointMetadata.default.toJson)) := by
      rw [Fs.content_eq_some, show P ++ [n, str!"zarr.json"] = P ++ [n] ++ [str!"zarr.json"] by simp,
        Fs.get_put, if_pos rfl]
    rw [e2, hdoc, Option.some.injEq] at e
    exact hpre ⟨_, e⟩

namespace Demo

/-- A hierarchy in `/h` whose entry point has an extension nobody has to understand. -/
def extended : Fs :=
  let m := { EntryPointMetadata.default with
    extensions := [⟨str!"http://example.org/e", false, none⟩] }
  ⟨[([], .dir), ([str!"h"], .dir), ([str!"h", str!"zarr.json"], .file (jsonText.print m.toJson))]⟩

end Demo

set_option maxRecDepth 20000 in
/-- `/h` can be opened; `open_or_create` of `/x/../h` succeeds; `/h` can no longer be opened. If there is
an `x` all is well, and `/h/../new` makes a new hierarchy and leaves `/h` alone. -/
example :
    (openHier Demo.envV str!"/h" Demo.extended).1.isOk = true ∧
    (openOrCreate Demo.envV str!"/x/../h" Demo.extended).1.isOk = true ∧
    (openHier Demo.envV str!"/h" (openOrCreate Demo.envV str!"/x/../h" Demo.extended).2).1 = .err .json ∧
    (openOrCreate Demo.envV str!"/x/../h" (Demo.extended.put [str!"x"] .dir)).2
      = Demo.extended.put [str!"x"] .dir ∧
    Anchored Demo.extended (segs str!"/h/../new") ∧
    (openOrCreate Demo.envV str!"/h/../new" Demo.extended).1.isOk = true := by
  refine ⟨by decide +kernel, by decide +kernel, by decide +kernel, by decide +kernel,
    ⟨[str!"h", dotdot], [str!"new"], by decide, by decide, by decide⟩, by decide +kernel⟩

end Zarr
