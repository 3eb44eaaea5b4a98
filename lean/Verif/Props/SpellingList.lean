import Verif.Props.Spelling
import Verif.Props.ListingExact
/-!
# C120 for `list_nodes`
-/

namespace Zarr

open Spec

theorem pairwise_ext {α : Type} {r : α → α → Prop} (ha : ∀ a b, r a b → ¬ r b a) {l l' : List α}
    (h : l.Pairwise r) (h' : l'.Pairwise r) (he : ∀ x, x ∈ l ↔ x ∈ l') : l = l' := by
  induction l generalizing l' with
  | nil =>
    cases l' with
    | nil => rfl
    | cons b t => exact absurd ((he b).mpr (by simp)) (by simp)
  | cons a s ih =>
    cases l' with
    | nil => exact absurd ((he a).mp (by simp)) (by simp)
    | cons b t =>
      obtain ⟨h1, h2⟩ := List.pairwise_cons.mp h
      obtain ⟨h1', h2'⟩ := List.pairwise_cons.mp h'
      have hab : a = b := by
        rcases List.mem_cons.mp ((he a).mp (by simp)) with e | e
        · exact e
        · rcases List.mem_cons.mp ((he b).mpr (by simp)) with e' | e'
          · exact e'.symm
          · exact absurd (h1' a e) (ha _ _ (h1 b e'))
      subst hab
      rw [ih h2 h2' fun x => ?_]
      constructor
      · intro hx
        rcases List.mem_cons.mp ((he x).mp (List.mem_cons_of_mem _ hx)) with e | e
        · subst e; exact absurd (h1 x hx) (ha _ _ (h1 x hx))
        · exact e
      · intro hx
        rcases List.mem_cons.mp ((he x).mpr (List.mem_cons_of_mem _ hx)) with e | e
        · subst e; exact absurd (h1' x hx) (ha _ _ (h1' x hx))
        · exact e

/-- **C120 for `list_nodes`**, with overflow checks or a metadata suffix of at most five bytes, on paths
without `..`, where no file in the directory has a name shorter than `array` and the suffix (as the files
of a hierarchy do not): the listings of two spellings are the same. -/
theorem C120_partial_list (env : Env) (h : Hier) {p q : Str} (hr : Respelled p q) (fs : Fs) (hwf : fs.WF)
    (hn : NamesOk fs) (hb : Plain (segs h.base)) (hp : Plain (segs p))
    (hov : env.overflowChecks = true ∨
      (byteLen h.entry.metadataKeySuffix ≤ 5 ∧ '/' ∉ h.entry.metadataKeySuffix))
    (hl : ∀ s b, fs.get (metaDir h p ++ [s]) = some (.file b) → 5 + h.entry.metadataKeySuffix.length ≤ s.length) :
    listNodes env h p fs = listNodes env h q fs := by
  have hs := hr.segs
  have hq : Plain (segs q) := hs ▸ hp
  have hm : metaDir h q = metaDir h p := by simp only [metaDir, hs]
  by_cases hd : fs.get (metaDir h p) = some .dir
  · have ep := C42_exact env h p fs hwf hn hb hp hd hov
    have eq := C42_exact env h q fs hwf hn hb hq (hm ▸ hd) hov
    have hdoc : ∀ s, ListedDoc h q fs s ↔ ListedDoc h p fs s := by
      intro s
      unfold ListedDoc
      rw [hm]
      refine and_congr_right fun ⟨b, hb⟩ => ?_
      have hlen := hl s b hb
      have hsuf : ∀ (k x : Str), k.length = 5 →
          (k ++ h.entry.metadataKeySuffix <:+ x ++ s ↔ k ++ h.entry.metadataKeySuffix <:+ s) := by
        intro k x hk
        constructor
        · intro hx
          exact List.suffix_of_suffix_length_le hx (List.suffix_append _ _) (by simp; omega)
        · intro hx
          exact hx.trans (List.suffix_append _ _)
      unfold IsDocName
      rw [hsuf _ _ rfl, hsuf _ _ rfl, hsuf _ _ rfl, hsuf _ _ rfl]
    rw [hm] at eq
    by_cases hc : ∀ s, ListedDoc h p fs s → ∃ n, Cut h.entry.metadataKeySuffix s n
    · obtain ⟨n1, r1, s1, m1⟩ := ep.1 hc
      obtain ⟨n2, r2, s2, m2⟩ := eq.1 fun s hs => hc s ((hdoc s).mp hs)
      have : n1 = n2 := pairwise_ext (fun a b h1 h2 => List.lt_asymm h1 h2) s1 s2 fun x => by
        rw [m1, m2]
        simp only [hdoc]
      rw [r1, r2, this]
    · have hno : ∃ s, ListedDoc h p fs s ∧ ∀ n, ¬ Cut h.entry.metadataKeySuffix s n := by
        refine Classical.byContradiction fun hx => hc fun s hs => ?_
        refine Classical.byContradiction fun hy => hx ⟨s, hs, fun n hn => hy ⟨n, hn⟩⟩
      rw [ep.2 hno, eq.2 (by obtain ⟨s, h1, h2⟩ := hno; exact ⟨s, (hdoc s).mpr h1, h2⟩)]
  · have hpl : Plain (metaDir h p) := hb.append (Plain.append (by decide) hp)
    have hk : ∀ x, segs (metaRoot ++ '/' :: canonicalizePath x) = str!"meta" :: str!"root" :: segs x := fun x => by
      rw [segs_append_sep, segs_canonicalizePath]; rfl
    -- neither is a directory, and the error is the same
    have herr : ∃ e, storeListDir h (metaRoot ++ '/' :: canonicalizePath p) fs = (e, fs) ∧
        storeListDir h (metaRoot ++ '/' :: canonicalizePath q) fs = (e, fs) ∧ ∀ r, e ≠ .ok r := by
      rcases getPath_spelt (h := h) (k := metaRoot ++ '/' :: canonicalizePath p)
          (k' := metaRoot ++ '/' :: canonicalizePath q) (by rw [hk, hk, hs]) with ⟨e, h1, h2⟩ | ⟨t, t', h1, h2, h3⟩
      · exact ⟨.err e, by simp only [storeListDir, M.read, h1]; rfl, by simp only [storeListDir, M.read, h2]; rfl,
          fun r => by simp⟩
      · have ht : segs t = metaDir h p := by rw [segs_target h1, hk]; rfl
        simp only [storeListDir, M.read, h1, h2, Outcome.bind_ok, ← h3]
        cases hloc : fs.locate (segs t) with
        | err e => exact ⟨.err e, rfl, rfl, fun r => by simp⟩
        | panic => exact ⟨.panic, rfl, rfl, fun r => by simp⟩
        | ok l =>
          have hl : l = metaDir h p := by
            rw [ht] at hloc
            exact Fs.locate_plain_ok hpl hloc
          cases hg : fs.get l with
          | none => exact ⟨.err .notFound, by simp only [hg], by simp only [hg], fun r => by simp⟩
          | some n =>
            cases n with
            | dir => rw [hl] at hg; exact absurd hg hd
            | file b => exact ⟨.err .notADirectory, by simp only [hg], by simp only [hg], fun r => by simp⟩
    obtain ⟨e, h1, h2, h3⟩ := herr
    unfold listNodes
    simp only [M.bind_apply]
    rw [h1, h2]
    cases e with
    | ok r => exact absurd rfl (h3 r)
    | err e => rfl
    | panic => rfl

/-- A hierarchy with a group and an array in an implicit group. -/
def Demo.plainDocsFs : Fs :=
  (createArray Demo.envJ Demo.hier str!"a/y" Demo.arr
    (createGroup Demo.envJ Demo.hier str!"temperature" Demo.emptyFs).2).2

/-- The root listed under two spellings. -/
example : Respelled str!"./" [] ∧
    (listNodes Demo.envJ Demo.hier str!"./" Demo.plainDocsFs).1 = .ok [str!"a", str!"temper"] ∧
    (listNodes Demo.envJ Demo.hier [] Demo.plainDocsFs).1 = .ok [str!"a", str!"temper"] :=
  ⟨.trans (.trail str!".") .only, by decide +kernel, by decide +kernel⟩

/-- The hypotheses of `C120_partial_list` hold there. -/
example : (Demo.plainDocsFs.WF ∧ NamesOk Demo.plainDocsFs) ∧
    ∀ s b, Demo.plainDocsFs.get (metaDir Demo.hier str!"./" ++ [s]) = some (.file b) →
      5 + Demo.hier.entry.metadataKeySuffix.length ≤ s.length := by
  refine ⟨wf_names_of_check (by decide +kernel), fun s b hg => ?_⟩
  have h1 := List.mem_map_of_mem (f := Prod.fst) (Fs.mem_of_lookup hg)
  have h2 : ∀ l ∈ Demo.plainDocsFs.ents.map Prod.fst, l.dropLast = metaDir Demo.hier str!"./" →
      l.getLastD [] = str!"a" ∨ 10 ≤ (l.getLastD []).length := by decide +kernel
  have h3 := h2 _ h1 (by simp)
  have h4 : Demo.plainDocsFs.get (metaDir Demo.hier str!"./" ++ [str!"a"]) = some .dir := by decide +kernel
  rcases h3 with e | e
  · simp at e
    rw [e, h4] at hg
    cases hg
  · have h5 : Demo.hier.entry.metadataKeySuffix.length = 5 := by decide
    simp at e
    omega

end Zarr
