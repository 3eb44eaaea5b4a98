import Verif.Lemmas.Listing
import Verif.Props.Metadata
/-!
# Listing: C42, C43
-/

namespace Zarr

open Spec

/-- The directory that holds the documents of the children of a path. -/
def Spec.metaDir (h : Hier) (path : Str) : Loc := segs h.base ++ ([str!"meta", str!"root"] ++ segs path)

/-- Names of entries are non-empty, contain no `/`, and are not `.` or `..`. -/
def Spec.NamesOk (fs : Fs) : Prop := ∀ l s n, fs.get (l ++ [s]) = some n →
  s ≠ [] ∧ '/' ∉ s ∧ s ≠ str!"." ∧ s ≠ str!".."

/-- Whether a file name is that of a node's document. -/
def Spec.IsDocName (h : Hier) (name : Str) : Prop :=
  str!"array" ++ h.entry.metadataKeySuffix <:+ name ∨ str!"group" ++ h.entry.metadataKeySuffix <:+ name

/-! ## C42 -/

/-- C42 fails as soon as a child has a document: the metadata suffix is cut off twice, so that a short
name makes the call panic and a long one loses its end. -/
theorem C42_violated :
    (let fs := (createGroup Demo.envJ Demo.hier str!"x" Demo.emptyFs).2
     (listNodes Demo.envJ Demo.hier [] fs).1 = .panic) ∧
    (let fs := (createGroup Demo.envJ Demo.hier str!"temperature" Demo.emptyFs).2
     (listNodes Demo.envJ Demo.hier [] fs).1 = .ok [str!"temper"]) := by
  decide +kernel

theorem storeListDir_eq {h : Hier} {pre : Str} {fs : Fs} (hwf : fs.WF) (hp : Plain (h.loc pre)) :
    storeListDir h pre fs = (match fs.get (h.loc pre) with
      | some .dir => .ok ((fs.children (h.loc pre)).filterMap (fun e => if e.2 = .dir then none else some (pre ++ e.1)),
          (fs.children (h.loc pre)).filterMap (fun e => if e.2 = .dir then some (pre ++ e.1) else none))
      | some (.file _) => .err .notADirectory
      | none => (storeListDir h pre fs).1, fs) := by
  refine Prod.ext ?_ rfl
  obtain ⟨t, ht, hseg⟩ := getPath_loc hp
  cases hg : fs.get (h.loc pre) with
  | none => rfl
  | some n =>
    have hl := Fs.locate_of_get hwf hp hg
    simp only [storeListDir, M.read_apply, ht, Outcome.bind_ok, hseg, hl]
    rw [hg]
    cases n <;> rfl

/-- Whatever a directory holds, if `list_nodes` returns a list it is sorted by code points and
without duplicates. -/
theorem C42_sorted (env : Env) (h : Hier) (path : Str) (fs : Fs) (names : List Str)
    (hl : (listNodes env h path fs).1 = .ok names) : names.Pairwise (· < ·) := by
  simp only [listNodes, M.bind_apply] at hl
  cases hd : storeListDir h (metaRoot ++ '/' :: canonicalizePath path) fs with
  | mk o fs' =>
    rw [hd] at hl
    cases o with
    | err e => simp at hl
    | panic => simp at hl
    | ok kp =>
      obtain ⟨keys, prefixes⟩ := kp
      have hkp : (storeListDir h (metaRoot ++ '/' :: canonicalizePath path) fs).1 = .ok (keys, prefixes) := by rw [hd]
      have key : (∀ k ∈ keys, metaRoot ++ '/' :: canonicalizePath path <+: k) ∧
          (∀ k ∈ prefixes, metaRoot ++ '/' :: canonicalizePath path <+: k) := by
        clear hl hd
        generalize metaRoot ++ '/' :: canonicalizePath path = pre at *
        simp only [storeListDir, M.read_apply, Outcome.bind_eq_ok] at hkp
        obtain ⟨t, _, hkp⟩ := hkp
        split at hkp
        · split at hkp
          · simp only [Outcome.pure_def, Outcome.ok.injEq, Prod.mk.injEq] at hkp
            obtain ⟨rfl, rfl⟩ := hkp
            constructor
            · intro k hk
              rw [List.mem_filterMap] at hk
              obtain ⟨e, _, he⟩ := hk
              split at he
              · simp at he
              · simp only [Option.some.injEq] at he; rw [← he]; exact List.prefix_append _ _
            · intro k hk
              rw [List.mem_filterMap] at hk
              obtain ⟨e, _, he⟩ := hk
              split at he
              · simp only [Option.some.injEq] at he; rw [← he]; exact List.prefix_append _ _
              · simp at he
          · simp at hkp
          · simp at hkp
        · simp at hkp
        · simp at hkp
      exact listNodesOf_sorted key.1 key.2 hl

theorem trimEnd_of_last {c : Char} {s t : Str} (ht : t ≠ []) (hc : c ∉ t) : trimEnd c (s ++ t) = s ++ t := by
  unfold trimEnd
  obtain ⟨i, a, rfl⟩ : ∃ i a, t = i ++ [a] :=
    ⟨t.dropLast, t.getLast ht, (List.dropLast_concat_getLast ht).symm⟩
  have hca : a ≠ c := by rintro rfl; exact hc (by simp)
  simp [hca]

/-- **C42** where the children have no documents, that is where all are implicit groups: the names
returned are those of the subdirectories, sorted and without duplicates. Missing: children with
documents, for which the claim is false (`C42_violated`). -/
theorem C42_partial (env : Env) (h : Hier) (path : Str) (fs : Fs) (hwf : fs.WF) (hn : NamesOk fs)
    (hb : Plain (segs h.base)) (hp : Plain (segs path)) (hd : fs.get (metaDir h path) = some .dir)
    (hdoc : ∀ s b, fs.get (metaDir h path ++ [s]) = some (.file b) →
      ¬ IsDocName h (metaRoot ++ '/' :: canonicalizePath path ++ s)) :
    ∃ names, listNodes env h path fs = (.ok names, fs) ∧ names.Pairwise (· < ·) ∧
      ∀ s, s ∈ names ↔ fs.get (metaDir h path ++ [s]) = some .dir := by
  have hloc : h.loc (metaRoot ++ '/' :: canonicalizePath path) = metaDir h path := by
    rw [Hier.loc, segs_append_sep, segs_canonicalizePath]; rfl
  have hpre0 : metaRoot ++ '/' :: canonicalizePath path ≠ [] := by simp [metaRoot]
  have hpl : Plain (h.loc (metaRoot ++ '/' :: canonicalizePath path)) := by
    rw [hloc]; exact hb.append (Plain.append (by decide) hp)
  have hls := storeListDir_eq hwf hpl
  rw [hloc, hd] at hls
  simp only at hls
  generalize hpre : metaRoot ++ '/' :: canonicalizePath path = pre at *
  have hmem : ∀ s n, (s, n) ∈ fs.children (metaDir h path) ↔ fs.get (metaDir h path ++ [s]) = some n :=
    fun s n => Fs.mem_children hwf
  -- no document survives the filters
  have hcomp : ∃ names, listNodesOf env h.entry.metadataKeySuffix pre
      ((fs.children (metaDir h path)).filterMap (fun e => if e.2 = .dir then none else some (pre ++ e.1)))
      ((fs.children (metaDir h path)).filterMap (fun e => if e.2 = .dir then some (pre ++ e.1) else none)) =
      .ok names ∧ ∀ s, s ∈ names ↔ fs.get (metaDir h path ++ [s]) = some .dir := by
    generalize hks : (fs.children (metaDir h path)).filterMap
      (fun e => if e.2 = .dir then none else some (pre ++ e.1)) = ks
    generalize hps : (fs.children (metaDir h path)).filterMap
      (fun e => if e.2 = .dir then some (pre ++ e.1) else none) = ps
    have hks' : ∀ k ∈ ks, ∃ s b, k = pre ++ s ∧ fs.get (metaDir h path ++ [s]) = some (.file b) := by
      intro k hk
      rw [← hks, List.mem_filterMap] at hk
      obtain ⟨⟨s, n⟩, he, hk⟩ := hk
      cases n with
      | dir => simp at hk
      | file b => exact ⟨s, b, by simpa using hk.symm, (hmem _ _).mp he⟩
    have hps' : ∀ k, k ∈ ps ↔ ∃ s, k = pre ++ s ∧ fs.get (metaDir h path ++ [s]) = some .dir := by
      intro k
      rw [← hps, List.mem_filterMap]
      constructor
      · rintro ⟨⟨s, n⟩, he, hk⟩
        cases n with
        | file b => simp at hk
        | dir => exact ⟨s, by simpa using hk.symm, (hmem _ _).mp he⟩
      · rintro ⟨s, rfl, hs⟩
        exact ⟨(s, .dir), (hmem _ _).mpr hs, by simp⟩
    -- truncation of the suffix succeeds and gives no document
    have htr : ∀ l : List Str, (∀ k ∈ l, k ∈ ks) → ∃ r,
        mapOutcome (fun k => truncateBytes (byteLen k - byteLen h.entry.metadataKeySuffix) k)
          (l.filter (endsWith · h.entry.metadataKeySuffix)) = .ok r ∧
        r.filter (fun k => endsWith k str!"array" || endsWith k str!"group") = [] := by
      intro l
      induction l with
      | nil => intro _; exact ⟨[], rfl, rfl⟩
      | cons k l ih =>
        intro hl
        obtain ⟨r, hr, hr'⟩ := ih fun k hk => hl k (List.mem_cons_of_mem _ hk)
        by_cases hk : endsWith k h.entry.metadataKeySuffix = true
        · rw [List.filter_cons_of_pos (p := fun k => endsWith k h.entry.metadataKeySuffix) hk]
          obtain ⟨t, ht⟩ : ∃ t, t ++ h.entry.metadataKeySuffix = k := List.isSuffixOf_iff_suffix.mp hk
          have hlen : byteLen k - byteLen h.entry.metadataKeySuffix = byteLen t := by
            rw [← ht, byteLen_append]; omega
          have htk : truncateBytes (byteLen k - byteLen h.entry.metadataKeySuffix) k = .ok t := by
            rw [hlen, ← ht]; exact truncateBytes_append _ _
          refine ⟨t :: r, by simp [mapOutcome, htk, hr], ?_⟩
          obtain ⟨s, b, hks, hsb⟩ := hks' k (hl k (List.mem_cons_self ..))
          have hnot : ∀ kind : Str, (kind = str!"array" ∨ kind = str!"group") →
              endsWith t kind = false := by
            intro kind hkind
            cases hc : endsWith t kind with
            | false => rfl
            | true =>
              exfalso
              obtain ⟨u, hu⟩ : ∃ u, u ++ kind = t := List.isSuffixOf_iff_suffix.mp hc
              have hsuf : kind ++ h.entry.metadataKeySuffix <:+ pre ++ s :=
                ⟨u, by rw [← List.append_assoc, hu, ht, hks]⟩
              refine hdoc s b hsb ?_
              rcases hkind with rfl | rfl
              · exact Or.inl hsuf
              · exact Or.inr hsuf
          simp only [List.filter_cons, hnot _ (Or.inl rfl), hnot _ (Or.inr rfl), Bool.or_self,
            Bool.false_eq_true, if_false, hr']
        · rw [List.filter_cons_of_neg (p := fun k => endsWith k h.entry.metadataKeySuffix) hk]; exact ⟨r, hr, hr'⟩
    obtain ⟨r, hr, hr'⟩ := htr ks fun k hk => hk
    have hps2 : ps.map (trimEnd '/') = ps := by
      rw [List.map_congr_left (g := id), List.map_id]
      intro k hk
      obtain ⟨s, rfl, hs⟩ := (hps' k).mp hk
      obtain ⟨n1, n2, _⟩ := hn _ _ _ hs
      exact trimEnd_of_last n1 n2
    have hform : ∀ l : List Str, (∀ k ∈ l, pre <+: k) → ∃ rs : List Str, l = rs.map (pre ++ ·) := by
      intro l
      induction l with
      | nil => intro _; exact ⟨[], rfl⟩
      | cons k l ih =>
        intro hl
        obtain ⟨rs, hrs⟩ := ih fun k hk => hl k (List.mem_cons_of_mem _ hk)
        obtain ⟨x, hx⟩ := hl k (List.mem_cons_self ..)
        exact ⟨x :: rs, by simp [hrs, hx]⟩
    obtain ⟨names, hnames⟩ := hform (dedupStrs (sortStrs ps)) (by
      intro k hk
      rw [mem_dedupStrs, mem_sortStrs, hps'] at hk
      obtain ⟨s, rfl, _⟩ := hk
      exact List.prefix_append _ _)
    refine ⟨names, ?_, ?_⟩
    · simp only [listNodesOf, hr, Outcome.bind_ok, hr', mapOutcome, Outcome.pure_def, List.nil_append, hps2, hnames]
      exact mapOutcome_drain_append _ _
    · intro s
      have h1 : s ∈ names ↔ pre ++ s ∈ names.map (pre ++ ·) := by
        simp
      rw [h1, ← hnames, mem_dedupStrs, mem_sortStrs, hps']
      constructor
      · rintro ⟨s', he, hs'⟩
        rw [List.append_cancel_left he]; exact hs'
      · exact fun hs => ⟨s, rfl, hs⟩
  obtain ⟨names, h1, h2⟩ := hcomp
  have hln : listNodes env h path fs = (.ok names, fs) := by
    simp only [listNodes, hpre, M.bind_apply, hls]
    simp [h1]
  exact ⟨names, hln, C42_sorted env h path fs names (by rw [hln]), h2⟩

/-- A hierarchy with arrays in the implicit groups `b` and `a`, and a foreign file. -/
def Demo.implicitFs : Fs :=
  let fs1 := (createArray Demo.envJ Demo.hier str!"b/x" Demo.arr Demo.emptyFs).2
  let fs2 := (createArray Demo.envJ Demo.hier str!"a/y" Demo.arr fs1).2
  (storeSet Demo.hier str!"/meta/root/README" ([1], .ok ()) fs2).2

example : (listNodes Demo.envJ Demo.hier [] Demo.implicitFs).1 = .ok [str!"a", str!"b"] ∧
    Demo.implicitFs.get (metaDir Demo.hier []) = some .dir ∧
    (Demo.implicitFs.children (metaDir Demo.hier [])).map Prod.fst = [str!"b", str!"a", str!"README"] := by
  decide +kernel

/-! ## C43 -/

/-- C43 fails: the keys `list_dir` returns lack the `/` between the directory and the name, so that
`list` looks for `/metaroot` as soon as there is a directory below a directory. Here a hierarchy with
one group. -/
theorem C43_violated :
    let fs := (createGroup Demo.envJ Demo.hier str!"x" Demo.emptyFs).2
    listAll Demo.hier fs 10 = some (.err .notFound) ∧
    (fs.content [str!"h", str!"meta", str!"root", str!"x.group.json"]).isSome ∧
    (storeListDir Demo.hier str!"/meta/root" fs).1 = .ok ([str!"/meta/rootx.group.json"], []) := by
  decide +kernel

theorem children_nodup {fs : Fs} (hwf : fs.WF) (l : Loc) : (fs.children l).Pairwise fun a b => a.1 ≠ b.1 := by
  have h : fs.ents.Pairwise fun a b => a.1 ≠ b.1 := by
    have := hwf.nodup
    rwa [List.Nodup, List.pairwise_map] at this
  refine h.filterMap _ ?_
  intro a a' hne b hb b' hb' heq
  apply hne
  cases ha : a.1.reverse with
  | nil => rw [ha] at hb; simp at hb
  | cons s r =>
    cases ha' : a'.1.reverse with
    | nil => rw [ha'] at hb'; simp at hb'
    | cons s' r' =>
      rw [ha] at hb; rw [ha'] at hb'
      simp only at hb hb'
      split at hb
      · split at hb'
        · rename_i h1 h2
          simp only [Option.some.injEq] at hb hb'
          rw [← hb, ← hb'] at heq
          simp only at heq
          have e1 : a.1 = l ++ [s] := by rw [← h1]; simpa using congrArg List.reverse ha
          have e2 : a'.1 = l ++ [s'] := by rw [← h2]; simpa using congrArg List.reverse ha'
          rw [e1, e2, heq]
        · simp at hb'
      · simp at hb

theorem listPrefixLoop_empty {h : Hier} {fs : Fs} (vs result : List Str) (n : Nat)
    (hv : ∀ v ∈ vs, (storeListDir h v fs).1 = .ok ([], [])) (hn : vs.length < n) :
    listPrefixLoop h fs n vs result = some (.ok result) := by
  induction vs generalizing n with
  | nil => cases n with
    | zero => simp at hn
    | succ n => rfl
  | cons v vs ih =>
    cases n with
    | zero => simp at hn
    | succ n =>
      simp only [listPrefixLoop, hv v (List.mem_cons_self ..), List.reverse_nil, List.nil_append, List.append_nil]
      exact ih n (fun v hv' => hv v (List.mem_cons_of_mem _ hv')) (by simpa using hn)

/-- **C43** for a prefix that ends in `/` and names a directory whose subdirectories are all empty:
`list_prefix` returns each key under the prefix once. Missing: anything deeper, and prefixes without
the final `/`, for which the claim is false (`C43_violated`). -/
theorem C43_partial (h : Hier) (q : Str) (fs : Fs) (hwf : fs.WF) (hn : NamesOk fs)
    (hb : Plain (segs h.base)) (hq : Plain (segs q)) (hd : fs.get (h.loc (q ++ str!"/")) = some .dir)
    (hsub : ∀ s t, fs.get (h.loc (q ++ str!"/") ++ [s]) = some .dir →
      fs.get (h.loc (q ++ str!"/") ++ [s] ++ [t]) = none) :
    ∃ n keys, (∀ fuel, n ≤ fuel → listPrefix h fs fuel (q ++ str!"/") = some (.ok keys)) ∧ keys.Nodup ∧
      (∀ k ∈ keys, q ++ str!"/" <+: k ∧ (fs.content (h.loc k)).isSome) ∧
      ∀ l, h.loc (q ++ str!"/") <+: l → (fs.content l).isSome → ∃ k ∈ keys, h.loc k = l := by
  have hplain : Plain (h.loc (q ++ str!"/")) := by
    rw [Hier.loc, segs_append_slash]; exact hb.append hq
  have hlk : ∀ s n, fs.get (h.loc (q ++ str!"/") ++ [s]) = some n →
      h.loc (q ++ str!"/" ++ s) = h.loc (q ++ str!"/") ++ [s] := by
    intro s n hg
    obtain ⟨n1, n2, n3, _⟩ := hn _ _ _ hg
    rw [Hier.loc, Hier.loc, segs_append_slash, List.append_assoc, List.singleton_append, segs_append_sep,
      segs_single s n2 n1 n3, List.append_assoc]
  have hls := storeListDir_eq hwf hplain
  rw [hd] at hls
  simp only at hls
  have hmem : ∀ s n, (s, n) ∈ fs.children (h.loc (q ++ str!"/")) ↔ fs.get (h.loc (q ++ str!"/") ++ [s]) = some n :=
    fun s n => Fs.mem_children hwf
  generalize hP : q ++ str!"/" = pre at *
  generalize hks : (fs.children (h.loc pre)).filterMap
    (fun e => if e.2 = .dir then none else some (pre ++ e.1)) = ks at hls
  generalize hps : (fs.children (h.loc pre)).filterMap
    (fun e => if e.2 = .dir then some (pre ++ e.1) else none) = ps at hls
  have hks' : ∀ k, k ∈ ks ↔ ∃ s b, k = pre ++ s ∧ fs.get (h.loc pre ++ [s]) = some (.file b) := by
    intro k
    rw [← hks, List.mem_filterMap]
    constructor
    · rintro ⟨⟨s, n⟩, he, hk⟩
      cases n with
      | dir => simp at hk
      | file b => exact ⟨s, b, by simpa using hk.symm, (hmem _ _).mp he⟩
    · rintro ⟨s, b, rfl, hs⟩
      exact ⟨(s, .file b), (hmem _ _).mpr hs, by simp⟩
  have hps' : ∀ k ∈ ps, ∃ s, k = pre ++ s ∧ fs.get (h.loc pre ++ [s]) = some .dir := by
    intro k hk
    rw [← hps, List.mem_filterMap] at hk
    obtain ⟨⟨s, n⟩, he, hk⟩ := hk
    cases n with
    | file b => simp at hk
    | dir => exact ⟨s, by simpa using hk.symm, (hmem _ _).mp he⟩
  have hempty : ∀ v ∈ ps, (storeListDir h v fs).1 = .ok ([], []) := by
    intro v hv
    obtain ⟨s, rfl, hs⟩ := hps' v hv
    obtain ⟨n1, n2, n3, n4⟩ := hn _ _ _ hs
    have hl := hlk s _ hs
    have hpl : Plain (h.loc (pre ++ s)) := by
      rw [hl]
      refine hplain.append ?_
      unfold Plain
      simp only [List.mem_singleton]
      exact fun e => n4 e.symm
    rw [storeListDir_eq hwf hpl, hl, hs]
    simp only
    have : fs.children (h.loc pre ++ [s]) = [] := by
      cases hc : fs.children (h.loc pre ++ [s]) with
      | nil => rfl
      | cons e es =>
        have : e ∈ fs.children (h.loc pre ++ [s]) := by rw [hc]; exact List.mem_cons_self ..
        obtain ⟨t, n⟩ := e
        rw [Fs.mem_children hwf] at this
        rw [hsub s t hs] at this
        simp at this
    rw [this]; rfl
  refine ⟨ps.length + 2, ks, ?_, ?_, ?_, ?_⟩
  · intro fuel hf
    obtain ⟨f, rfl⟩ : ∃ f, fuel = f + 1 := ⟨fuel - 1, by omega⟩
    simp only [listPrefix, listPrefixLoop, hls, List.append_nil, List.nil_append]
    exact listPrefixLoop_empty _ _ _ (by simpa using hempty) (by simp; omega)
  · rw [← hks]
    refine (children_nodup hwf _).filterMap _ ?_
    intro a a' hne b hb' b' hb'' heq
    apply hne
    split at hb'
    · simp at hb'
    · split at hb''
      · simp at hb''
      · simp only [Option.some.injEq] at hb' hb''
        rw [← hb', ← hb''] at heq
        exact List.append_cancel_left heq
  · intro k hk
    obtain ⟨s, b, rfl, hs⟩ := (hks' k).mp hk
    refine ⟨List.prefix_append _ _, ?_⟩
    rw [hlk s _ hs, Fs.content_eq_some.mpr hs]; rfl
  · intro l hl hc
    obtain ⟨t, rfl⟩ := hl
    obtain ⟨b, hb'⟩ := Option.isSome_iff_exists.mp hc
    rw [Fs.content_eq_some] at hb'
    cases t with
    | nil => rw [List.append_nil, hd] at hb'; simp at hb'
    | cons s t =>
      cases t with
      | nil => exact ⟨pre ++ s, (hks' _).mpr ⟨s, b, rfl, hb'⟩, hlk s _ hb'⟩
      | cons u t =>
        have e : h.loc pre ++ s :: u :: t = (h.loc pre ++ [s]) ++ (u :: t) := by simp
        rw [e] at hb'
        have h1 := hwf.dir_of_append (u :: t) (by simp) hb'
        have h2 := hwf.none_below (l := h.loc pre ++ [s] ++ [u]) (l' := h.loc pre ++ [s] ++ (u :: t))
          ⟨t, by simp⟩ (hsub s u h1)
        rw [h2] at hb'; simp at hb'

example :
    let fs := (storeSet Demo.hier str!"d/b" ([1], .ok ()) (storeSet Demo.hier str!"d/a" ([2], .ok ()) Demo.emptyFs).2).2
    listPrefix Demo.hier fs 5 str!"d/" = some (.ok [str!"d/a", str!"d/b"]) ∧
    fs.get (Demo.hier.loc str!"d/") = some .dir ∧
    listPrefix Demo.hier fs 5 str!"d" = some (.ok [str!"da", str!"db"]) := by
  decide +kernel

end Zarr
