import Verif.Lemmas.AnyStore
/-!
# Histories on any store (C100, C101) -/

namespace Zarr.Any

open Zarr.Spec

/-! ## Specification -/

/-- The paths of the calls. -/
def Spec.PathOf (calls : List BCall) (p : Str) : Prop := ∃ c ∈ calls, (WCall.call c).path = p

/-- The prefixes that the calls erase. -/
def Spec.Removed (calls : List BCall) (k : Str) : Prop := ∃ p, BCall.call (.remove p) ∈ calls ∧ k = dataPathKey p

/-- If a path that is removed begins, as a string, another path of the calls, it is above it or the same. -/
def Spec.PrefixSafe (calls : List BCall) : Prop :=
  ∀ p, BCall.call (.remove p) ∈ calls → ∀ q, PathOf calls q →
    ['/'].intercalate (segs p) <+: ['/'].intercalate (segs q) → segs p <+: segs q

open Any.Spec

section
variable {σ : Type} {S : Store σ} {inv : σ → Prop} {view : σ → Str → Option Bytes} {under : Str → Str → Prop}
variable {env : Env} {h : Hier} {md : List Str → ArrayMetadata} {fill : List Str → (t : RsType) → El t} {Q : Str → Prop}

theorem results_same (u : Usable h md Q) (hj : env.json.Lawful) {Pre : Str → Prop}
    (hpre : ∀ k, Pre k → ∃ p, Q p ∧ k = dataPathKey p)
    (hS : KeepsValues S inv view (SeenKey h md Q) (FileKey h md Q) Pre under)
    (hu : ∀ p k, Pre p → SeenKey h md Q k → (under p k ↔ segs p <+: segs k)) (calls : List BCall) :
    ∀ {a : AbsHier} {fs : Fs} {s : σ}, (∀ c ∈ calls, c.Ok env h md fill) → (∀ c ∈ calls, Q (WCall.call c).path) →
      (∀ p, BCall.call (.remove p) ∈ calls → Pre (dataPathKey p)) → Holds env h md a fs → inv s →
      (∀ k, SeenKey h md Q k → view s k = fs.content (h.loc k)) →
      results S env h md (calls.map .call) s = (bAbsResults md fill calls a).map fun r => .ok (.plain r) := by
  induction calls with
  | nil => intros; rfl
  | cons c cs ih =>
    intro a fs s hok hq hr hh hi hv
    obtain ⟨h1, h2⟩ := bStep hj u.base u.suffix u.dot u.sep hh c (hok c (by simp))
    obtain ⟨e1, e2, _, _, e5⟩ := run_same u hpre hS hu (Wide.callProg env h md (.call c))
      (on_call c (hok c (by simp)) (hq c (by simp)) fun p e => hr p (by simp [e]))
      (clean_call u hj hh c (hok c (by simp))) hi hh.wf hh.clear hv
    rw [Wide.run_call] at e1 e5
    simp only [List.map_cons, results, bAbsResults]
    rw [e1]
    refine congr (congrArg _ ?_) (ih (fun c hc => hok c (by simp [hc])) (fun c hc => hq c (by simp [hc]))
      (fun p hp => hr p (by simp [hp])) h2 e2 e5)
    rw [← h1]; rfl

theorem path_ordinary {c : BCall} (hok : c.Ok env h md fill) : OrdinaryPath h (WCall.call c).path := by
  cases c with
  | readBox p t b => exact hok.1
  | writeBox p t o a => exact hok.1
  | call c => cases c <;> first | exact hok | exact hok.1

/-! ## A filesystem to compare with -/

/-- A filesystem that is empty. -/
def bareFs : Fs := Demo.emptyFs

theorem bareFs_fresh (h : Hier) : FreshDir h bareFs := by
  constructor
  · intro l r hl hr _
    have : l ≠ [] := by rw [hl]; simp [hr]
    simp [bareFs, Demo.emptyFs, Fs.get, Fs.lookup, Ne.symm this]
  · intro l b hl
    by_cases h : l = []
    · subst h; simp [bareFs, Demo.emptyFs, Fs.get, Fs.lookup]
    · simp [bareFs, Demo.emptyFs, Fs.get, Fs.lookup, Ne.symm h]

theorem bareFs_content (l : Loc) : bareFs.content l = none := by
  by_cases h : l = []
  · subst h; rfl
  · simp [bareFs, Demo.emptyFs, Fs.content, Fs.get, Fs.lookup, Ne.symm h]

/-! ## Prefixes as strings -/

theorem segs_c {t : Str} (ht : t = [] ∨ ∃ d w, t = d :: w ∧ (48 ≤ d.toNat ∧ d.toNat ≤ 57)) :
    ∃ s r, segs ('c' :: t) = s :: r ∧ ChunkLike s := by
  rcases ht with rfl | ⟨d, w, rfl, hd⟩
  · exact ⟨_, _, rfl, .inl rfl⟩
  · have hd' : d ≠ '/' := by rintro rfl; exact absurd hd (by decide)
    have hc : ('c' :: d :: w.takeWhile (· ≠ '/')) ++ w.dropWhile (· ≠ '/') = 'c' :: d :: w := by
      simp [List.takeWhile_append_dropWhile]
    have hsingle : segs ('c' :: d :: w.takeWhile (· ≠ '/')) = ['c' :: d :: w.takeWhile (· ≠ '/')] := by
      refine segs_single _ ?_ (by simp) (by simp)
      simp only [List.mem_cons, not_or]
      refine ⟨by decide, Ne.symm hd', fun hm => ?_⟩
      have := mem_takeWhile_pos hm
      simp at this
    have hlike : ChunkLike ('c' :: d :: w.takeWhile (· ≠ '/')) := .inr ⟨d, _, rfl, hd⟩
    cases hr : w.dropWhile (· ≠ '/') with
    | nil =>
      rw [hr, List.append_nil] at hc
      rw [← hc]; exact ⟨_, _, hsingle, hlike⟩
    | cons x r =>
      have hx : x = '/' := by
        have := List.head?_dropWhile_not (p := fun c : Char => c ≠ '/') (l := w)
        rw [hr] at this
        simpa using this
      rw [hr, hx] at hc
      rw [← hc, segs_append_sep, hsingle]
      exact ⟨_, _, rfl, hlike⟩

theorem joinCoords_digit (sep : Str) (pos : List Nat) {t : Str} (ht : t <+: joinCoords sep pos) :
    t = [] ∨ ∃ d w, t = d :: w ∧ (48 ≤ d.toNat ∧ d.toNat ≤ 57) := by
  cases t with
  | nil => exact .inl rfl
  | cons d w =>
    refine .inr ⟨d, w, rfl, ?_⟩
    have key : ∀ (n : Nat) (r : Str), d :: w <+: dec n ++ r → (48 ≤ d.toNat ∧ d.toNat ≤ 57) := by
      intro n r hp
      obtain ⟨x, y, e, hx⟩ := dec_cons n
      rw [e] at hp
      obtain ⟨z, hz⟩ := hp
      simp only [List.cons_append, List.cons.injEq] at hz
      rw [hz.1]
      simpa [isDigit] using hx
    match pos, ht with
    | [], ht => simp [joinCoords] at ht
    | [c], ht => exact key c [] (by simpa [joinCoords] using ht)
    | c :: e :: cs, ht => exact key c _ (by simpa [joinCoords] using ht)

theorem dataPathKey_eq (p : Str) : dataPathKey p = str!"/data/root/" ++ canonicalizePath p := by
  unfold dataPathKey joinPath
  split
  · rename_i r e; exact absurd e (rel_canonicalizePath p r)
  · rfl

theorem chunkKey_str (p : Str) (m : ArrayMetadata) (pos : List Nat) :
    chunkKey p m pos = str!"/data/root/" ++ (if canonicalizePath p = [] then 'c' :: joinCoords m.separator pos
      else canonicalizePath p ++ '/' :: 'c' :: joinCoords m.separator pos) := by
  unfold chunkKey
  by_cases e : canonicalizePath p = []
  · simp [e, dataRoot]
  · simp [e, dataRoot]

theorem segs_data (x : Str) : segs (str!"/data/root/" ++ x) = str!"data" :: str!"root" :: segs x :=
  segs_append_sep str!"/data/root" x

theorem prefix_of_ordinary {a b c : List Str} (ha : ∀ s ∈ a, ¬ ChunkLike s) (hc : ∃ s t, c = s :: t ∧ ChunkLike s)
    (hp : a <+: b ++ c) : a <+: b := by
  rcases List.prefix_or_prefix_of_prefix hp (List.prefix_append b c) with h | h
  · exact h
  · obtain ⟨t, rfl⟩ := h
    obtain ⟨s, r, rfl, hs⟩ := hc
    cases t with
    | nil => simp
    | cons x t =>
      have := (List.prefix_append_right_inj b).mp hp
      obtain ⟨w, hw⟩ := this
      simp only [List.cons_append, List.cons.injEq] at hw
      exact absurd hs (hw.1 ▸ ha x (by simp))

theorem intercalate_prefix {a b : List Str} (hp : a <+: b) : ['/'].intercalate a <+: ['/'].intercalate b := by
  obtain ⟨t, rfl⟩ := hp
  induction a with
  | nil => simp [List.intercalate]
  | cons x a ih =>
    cases a with
    | nil => cases t with
      | nil => simp
      | cons y t =>
        show ['/'].intercalate [x] <+: ['/'].intercalate (x :: y :: t)
        rw [intercalate_two, show ['/'].intercalate [x] = x by simp [List.intercalate]]
        exact List.prefix_append _ _
    | cons y a =>
      show ['/'].intercalate (x :: y :: a) <+: ['/'].intercalate (x :: y :: (a ++ t))
      rw [intercalate_two, intercalate_two]
      exact (List.prefix_append_right_inj x).mpr (List.cons_prefix_cons.mpr ⟨rfl, ih⟩)

theorem literal_under (u : Usable h md Q) {q : Str} (hq : Q q)
    (hsafe : ∀ q', Q q' → ['/'].intercalate (segs q) <+: ['/'].intercalate (segs q') → segs q <+: segs q') {k : Str}
    (hk : SeenKey h md Q k) : dataPathKey q <+: k ↔ segs (dataPathKey q) <+: segs k := by
  have hmeta : ∀ {k : Str}, (∃ r, segs k = str!"meta" :: r) → (dataPathKey q <+: k ↔ segs (dataPathKey q) <+: segs k) := by
    rintro k ⟨r, hr⟩
    constructor
    · rintro ⟨x, rfl⟩
      rw [dataPathKey_eq, List.append_assoc, segs_data] at hr
      simp at hr
    · rintro ⟨x, hx⟩
      rw [hr, segs_dataPathKey] at hx
      simp at hx
  have ext : ∀ x (y : List Str), ∃ r, extLast x (str!"meta" :: str!"root" :: y) = str!"meta" :: r := fun x y => ⟨_, rfl⟩
  cases hk with
  | implicit p hp => exact hmeta ⟨_, segs_implicitKey u.suffix u.dot (u.paths p hp).1.plain⟩
  | file hk =>
    cases hk with
    | array p hp => exact hmeta (by rw [segs_arrayMetadataKey u.suffix (u.paths p hp).1.plain]; exact ext _ _)
    | group p hp => exact hmeta (by rw [segs_groupMetadataKey u.suffix (u.paths p hp).1.plain]; exact ext _ _)
    | chunk p pos hp hl =>
      obtain ⟨oq, tq⟩ := u.paths q hq
      obtain ⟨op, tp⟩ := u.paths p hp
      have hnc : ∀ s ∈ segs q, ¬ ChunkLike s := fun s hs => (oq s hs).chunk
      rw [segs_dataPathKey, segs_chunkKey, dataPathKey_eq, chunkKey_str, tq.canonical, tp.canonical]
      rw [List.prefix_append_right_inj]
      simp only [List.cons_prefix_cons, true_and]
      have sq : segs (['/'].intercalate (segs q)) = segs q := by rw [← tq.canonical, segs_canonicalizePath]
      have notC : ∀ y z : Str, segs q = segs y ++ segs ('c' :: z) → z <+: joinCoords (md (segs p)).separator pos → False := by
        intro y z e hz
        obtain ⟨s, r, e', hs⟩ := segs_c (joinCoords_digit _ _ hz)
        rw [e'] at e
        exact hnc s (by rw [e]; simp) hs
      constructor
      · intro hpre
        by_cases e0 : ['/'].intercalate (segs p) = []
        · rw [if_pos e0] at hpre
          cases hI : ['/'].intercalate (segs q) with
          | nil => rw [hI] at sq; rw [← sq]; simp
          | cons x t =>
            rw [hI] at hpre sq
            obtain ⟨rfl, ht⟩ := List.cons_prefix_cons.mp hpre
            exact (notC [] t (by rw [← sq]; rfl) ht).elim
        · rw [if_neg e0] at hpre
          rcases List.prefix_or_prefix_of_prefix hpre (List.prefix_append _ _) with hp1 | ⟨t, ht⟩
          · exact (hsafe p hp hp1).trans (List.prefix_append _ _)
          · rw [← ht, List.prefix_append_right_inj] at hpre
            cases t with
            | nil =>
              rw [List.append_nil] at ht
              exact (hsafe p hp (by rw [ht]; exact List.prefix_refl _)).trans (List.prefix_append _ _)
            | cons x t =>
              obtain ⟨rfl, ht'⟩ := List.cons_prefix_cons.mp hpre
              cases t with
              | nil =>
                by_cases hn : segs q = []
                · rw [hn] at ht; simp [List.intercalate] at ht
                · obtain ⟨_, r, c, e, hc⟩ := intercalate_ends (ns := segs q)
                    (fun s hs => ⟨(mem_segs hs).1, (mem_segs hs).2.1⟩) hn
                  rw [e] at ht
                  have := congrArg List.getLast? ht
                  simp at this
                  exact absurd this.symm hc
              | cons x t =>
                obtain ⟨rfl, ht''⟩ := List.cons_prefix_cons.mp ht'
                exact (notC (['/'].intercalate (segs p)) t (by rw [← sq, ← ht, segs_append_sep]) ht'').elim
      · intro hpre
        have hp1 := intercalate_prefix (prefix_of_ordinary hnc (chunkTail_like _ _ (u.sep _)) hpre)
        by_cases e0 : ['/'].intercalate (segs p) = []
        · rw [e0] at hp1
          rw [List.prefix_nil.mp hp1]; simp
        · rw [if_neg e0]; exact hp1.trans (List.prefix_append _ _)

end

/-! ## C100 -/

/-- **C100** The calls do the same on every store, not only on a filesystem: on a store that keeps the value of each key
and erases a prefix name by name, and that holds none of the documents and chunks of the nodes to begin with, every
history of the calls of C81 gives the results that it gives on the map of C70. -/
theorem C100 {σ : Type} (S : Store σ) (inv : σ → Prop) (view : σ → Str → Option Bytes) (s : σ) (env : Env) (h : Hier)
    (md : List Str → ArrayMetadata) (fill : List Str → (t : RsType) → El t) (calls : List BCall)
    (hj : env.json.Lawful) (hb : Plain (segs h.base)) (hsfx : GoodSuffix h.entry)
    (hdot : '.' ∉ stripDot h.entry.metadataKeySuffix) (hs : ∀ q, GoodSep (md q).separator)
    (hS : KeepsValues S inv view (SeenKey h md (PathOf calls)) (FileKey h md (PathOf calls)) (Removed calls)
      (fun p k => segs p <+: segs k))
    (hi : inv s) (hempty : ∀ k, SeenKey h md (PathOf calls) k → view s k = none)
    (hok : ∀ c ∈ calls, c.Ok env h md fill) (htidy : ∀ p, PathOf calls p → Tidy p) :
    results S env h md (calls.map .call) s = (bAbsResults md fill calls AbsHier.empty).map fun r => .ok (.plain r) := by
  have u : Usable h md (PathOf calls) := ⟨hb, hsfx, hdot, hs, fun p hp => ⟨?_, htidy p hp⟩⟩
  · refine results_same u hj ?_ hS (fun _ _ _ _ => Iff.rfl) calls hok (fun c hc => ⟨c, hc, rfl⟩)
      (fun p hp => ⟨p, hp, rfl⟩) (.fresh hb hs Demo.emptyFs_wf (bareFs_fresh h)) hi fun k hk => ?_
    · rintro k ⟨p, hp, rfl⟩; exact ⟨p, ⟨_, hp, rfl⟩, rfl⟩
    · rw [hempty k hk]; exact (bareFs_content _).symm
  · obtain ⟨c, hc, rfl⟩ := hp
    exact path_ordinary (hok c hc)

/-! ## Stores in memory -/

/-- The values of a list of keys and values. -/
def valueOf (s : List (Str × Bytes)) (k : Str) : Option Bytes := (s.find? fun e => e.1 = k).map (·.2)

/-- What follows the prefix. -/
def afterPrefix (pre k : Str) : Option Str := if pre.isPrefixOf k then some (k.drop pre.length) else none

/-- `list_dir` by the words of its documentation (storage.rs:63-65): all keys and prefixes with the prefix which do not
contain `/` after it. -/
def literalList (pre : Str) (s : List (Str × Bytes)) : List Str × List Str :=
  let rest := s.filterMap fun e => afterPrefix pre e.1
  ((rest.filter fun r => !r.contains '/').map (pre ++ ·),
   ((rest.filter fun r => r.contains '/').map fun r => pre ++ r.takeWhile (· ≠ '/')).eraseDups)

/-- A store in memory, with what `erase_prefix` erases. -/
def memory (under : Str → Str → Bool) : Store (List (Str × Bytes)) where
  has k s := (.ok (valueOf s k).isSome, s)
  get k s := (.ok (valueOf s k), s)
  set k v s := (v.2, (k, v.1) :: s)
  erase k s := (.ok true, s.filter fun e => e.1 ≠ k)
  erasePrefix p s := (.ok true, s.filter fun e => !under p e.1)
  listDir pre s := (.ok (literalList pre s), s)

theorem valueOf_filter (f : Str → Bool) (s : List (Str × Bytes)) (k : Str) :
    valueOf (s.filter fun e => f e.1) k = if f k then valueOf s k else none := by
  induction s with
  | nil => simp [valueOf]
  | cons e s ih =>
    unfold valueOf at ih ⊢
    by_cases hf : f e.1
    · rw [List.filter_cons_of_pos (by exact hf)]
      by_cases he : e.1 = k
      · simp [he ▸ hf, he]
      · simp only [List.find?_cons, he, decide_false]; exact ih
    · rw [List.filter_cons_of_neg (by exact hf), ih]
      by_cases he : e.1 = k
      · simp [he ▸ hf]
      · simp [he]

/-- It keeps the value of each key. -/
theorem memory_keeps (under : Str → Str → Bool) (Seen File Pre : Str → Prop) :
    KeepsValues (memory under) (fun _ => True) valueOf Seen File Pre (fun p k => under p k = true) where
  has _ _ _ _ := ⟨rfl, trivial, fun _ _ => rfl⟩
  get _ _ _ _ := ⟨rfl, trivial, fun _ _ => rfl⟩
  set k b s _ _ := ⟨rfl, trivial, fun k' _ => by
    simp only [memory, valueOf, List.find?_cons]
    by_cases e : k' = k
    · subst e; simp
    · rw [if_neg e]; simp [Ne.symm e]⟩
  erase k s _ _ := ⟨rfl, trivial, fun k' _ => by
    simp only [memory]
    rw [valueOf_filter (fun x => decide (x ≠ k))]
    by_cases e : k' = k <;> simp [e]⟩
  erasePrefix p s _ _ := ⟨⟨_, rfl⟩, trivial, fun k _ => by
    simp only [memory]
    rw [valueOf_filter (fun x => !under p x)]
    constructor <;> intro e <;> simp [e]⟩

/-- A filesystem is a store for which C100 holds, and so is the store in memory that erases a prefix name by name. -/
example (h : Hier) (md : List Str → ArrayMetadata) (calls : List BCall) (u : Usable h md (PathOf calls)) :
    KeepsValues (filesystem h) (fun fs => fs.WF ∧ Clear h md fs) (fun fs k => fs.content (h.loc k))
      (SeenKey h md (PathOf calls)) (FileKey h md (PathOf calls)) (Removed calls) (fun p k => segs p <+: segs k) :=
  (filesystem_keeps u).mono (fun _ hk => hk) (fun _ hk => hk) (by rintro k ⟨p, hp, rfl⟩; exact ⟨p, ⟨_, hp, rfl⟩, rfl⟩)
    fun _ _ => Iff.rfl

/-- Create an array, and one whose name begins with its name, write and read its chunks, and remove the one above. -/
def demoHistory : List BCall :=
  [.call (.createArray str!"a" Demo.arr), .call (.createArray str!"/a/b/" Demo.arr), .call (.createArray str!"b" Demo.arr),
   .call (.writeChunk str!"a/b" .u16 ⟨[1], Demo.chunk.data⟩), .call (.writeChunk str!"b" .u16 ⟨[1], Demo.chunk.data⟩),
   .call (.createGroup str!"a"), .readBox str!"/a/b" .u16 ⟨[0], [5]⟩, .call (.remove str!"a"),
   .call (.readChunk str!"a/b" .u16 [1]), .call (.readChunk str!"b" .u16 [1]), .call (.nodeExists str!"a/b"),
   .call (.nodeExists str!"a")]

theorem ordinary_ab {s : Str} (h : s = str!"a" ∨ s = str!"b" ∨ s = str!"ab") : OrdinaryName Demo.hier s := by
  rcases h with rfl | rfl | rfl
  · exact Demo.ordinary (.inl rfl)
  · exact Demo.ordinary (.inr rfl)
  · refine ⟨by decide, ?_, by decide, by decide⟩
    rintro (e | ⟨d, r, e, _⟩) <;> simp at e

theorem ordinaryPath_ab {p : Str} (h : (segs p).all (fun s => decide (s = str!"a" ∨ s = str!"b" ∨ s = str!"ab")) = true) :
    OrdinaryPath Demo.hier p := fun s hs => ordinary_ab (of_decide_eq_true (List.all_eq_true.mp h s hs))

theorem writeOk (p : Str) (hp : (segs p).all (fun s => decide (s = str!"a" ∨ s = str!"b" ∨ s = str!"ab")) = true) :
    (BCall.call (.writeChunk p .u16 ⟨[1], Demo.chunk.data⟩)).Ok Demo.envJ Demo.hier (fun _ => Demo.arr) Demo.fills :=
  ⟨ordinaryPath_ab hp, ⟨show Demo.arr.inBounds [1] = .ok true by decide, _, rfl, rfl⟩, rfl,
    show Demo.arr.chunkShape.prod < 2 ^ 32 by decide, rawCodec_lawful, fun _ => rfl⟩

theorem demoHistory_ok : ∀ c ∈ demoHistory, c.Ok Demo.envJ Demo.hier (fun _ => Demo.arr) Demo.fills := by
  simp only [demoHistory, List.forall_mem_cons]
  refine ⟨⟨ordinaryPath_ab (by decide), Demo.arr_faithful⟩, ⟨ordinaryPath_ab (by decide), Demo.arr_faithful⟩,
    ⟨ordinaryPath_ab (by decide), Demo.arr_faithful⟩, writeOk _ (by decide), writeOk _ (by decide),
    ordinaryPath_ab (by decide),
    ⟨ordinaryPath_ab (by decide), Demo.boxOk (o := 0) (w := 5) (by decide) (by decide)⟩, ordinaryPath_ab (by decide),
    ⟨ordinaryPath_ab (by decide), by decide, _, rfl, rfl⟩, ⟨ordinaryPath_ab (by decide), by decide, _, rfl, rfl⟩,
    ordinaryPath_ab (by decide), ordinaryPath_ab (by decide), by simp⟩

/-- All paths of the calls are tidy. -/
def tidyPath (p : Str) : Prop :=
  p = ['/'].intercalate (segs p) ∨ p = '/' :: ['/'].intercalate (segs p) ∨ p = '/' :: ['/'].intercalate (segs p) ++ ['/']

instance (p : Str) : Decidable (tidyPath p) := by unfold tidyPath; infer_instance

theorem tidy_of {calls : List BCall} (h : ∀ p ∈ calls.map fun c => (WCall.call c).path, tidyPath p) :
    ∀ p, PathOf calls p → Tidy p := by
  rintro p ⟨c, hc, rfl⟩
  rcases h _ (List.mem_map.mpr ⟨c, hc, rfl⟩) with e | e | e
  · exact ⟨0, 0, by simpa using e⟩
  · exact ⟨1, 0, by simpa using e⟩
  · exact ⟨1, 1, by simpa using e⟩

/-- The history meets the hypotheses of C100 on the store in memory, and its results are these. -/
example : results (memory fun p k => decide (segs p <+: segs k)) Demo.envJ Demo.hier (fun _ => Demo.arr)
      (demoHistory.map .call) [] =
    [.plain (.unit (.ok ())), .plain (.unit (.ok ())), .plain (.unit (.ok ())), .plain (.unit (.ok ())),
     .plain (.unit (.ok ())), .plain (.unit (.err .alreadyExists)),
     .box (.ok ([5], ⟨.u16, ([0, 0, 258, 7, 0] : List (BitVec 16))⟩)), .plain (.unit (.ok ())),
     .plain (.data (.ok none)), .plain (.data (.ok (some ⟨.u16, Demo.chunk.data⟩))), .plain (.bool (.ok true)),
     .plain (.bool (.ok false))].map fun r => .ok (WResult.plain r) := by
  rw [C100 (memory fun p k => decide (segs p <+: segs k)) (fun _ => True) valueOf [] Demo.envJ Demo.hier
    (fun _ => Demo.arr) Demo.fills demoHistory jsonText_lawful (by decide) (by unfold GoodSuffix; decide) (by decide)
    (fun _ => .inl rfl) ((memory_keeps _ _ _ _).mono (fun _ hk => hk) (fun _ hk => hk) (fun _ hk => hk)
      fun p k => decide_eq_true_iff.symm) trivial (fun _ _ => rfl) demoHistory_ok (tidy_of (by decide))]
  rfl

/-! ## C101 -/

/-- A store that takes a prefix as a string, as `list_dir` is documented to do (storage.rs:63-65). -/
def literal : Store (List (Str × Bytes)) := memory fun p k => p.isPrefixOf k

/-- A chunk of `ab` is gone after `a` has been removed. -/
def lostHistory : List BCall :=
  [.call (.createArray str!"a" Demo.arr), .call (.createArray str!"ab" Demo.arr),
   .call (.writeChunk str!"ab" .u16 ⟨[1], Demo.chunk.data⟩), .call (.remove str!"a"), .call (.readChunk str!"ab" .u16 [1])]

theorem lostHistory_ok : ∀ c ∈ lostHistory, c.Ok Demo.envJ Demo.hier (fun _ => Demo.arr) Demo.fills := by
  simp only [lostHistory, List.forall_mem_cons]
  exact ⟨⟨ordinaryPath_ab (by decide), Demo.arr_faithful⟩, ⟨ordinaryPath_ab (by decide), Demo.arr_faithful⟩,
    writeOk _ (by decide), ordinaryPath_ab (by decide), ⟨ordinaryPath_ab (by decide), by decide, _, rfl, rfl⟩, by simp⟩

/-- What `list_nodes` returned, if the last call was one. -/
def lastNames : List (Outcome WResult) → Option (Outcome (List Str))
  | [] => none
  | [.ok (.names r)] => some r
  | _ :: rs => lastNames rs

/-- The last call read no data. -/
def readNone : List (Outcome WResult) → Bool
  | [] => false
  | [.ok (.plain (.plain (.data (.ok none))))] => true
  | _ :: rs => readNone rs

/-- The full claim of C101 is false. On a store that takes prefixes as strings a history of permitted calls gives other
results than on the map: the chunk of `ab` is gone when `a` has been removed. And `list_nodes` of `a`, which returns the
nodes below `a` on a filesystem, returns an empty name there. -/
theorem C101_violated :
    (¬ ∀ calls : List BCall, (∀ c ∈ calls, c.Ok Demo.envJ Demo.hier (fun _ => Demo.arr) Demo.fills) →
      (∀ p, PathOf calls p → Tidy p) →
      results literal Demo.envJ Demo.hier (fun _ => Demo.arr) (calls.map .call) [] =
        (bAbsResults (fun _ => Demo.arr) Demo.fills calls AbsHier.empty).map fun r => .ok (.plain r)) ∧
    lastNames (results (filesystem Demo.hier) Demo.envJ Demo.hier (fun _ => Demo.arr)
      [.call (.call (.createGroup str!"a/b/a")), .listNodes str!"a"] Demo.emptyFs) =
        some (.ok [str!"b"]) ∧
    lastNames (results literal Demo.envJ Demo.hier (fun _ => Demo.arr)
      [.call (.call (.createGroup str!"a/b/a")), .listNodes str!"a"] []) =
        some (.ok [[]]) := by
  refine ⟨fun hall => ?_, by decide +kernel, by decide +kernel⟩
  have e := congrArg readNone (hall lostHistory lostHistory_ok (tidy_of (by decide)))
  have e2 : readNone (results literal Demo.envJ Demo.hier (fun _ => Demo.arr) (lostHistory.map .call) []) = true := by
    decide +kernel
  rw [e2] at e
  exact absurd e (by decide +kernel)

/-- **C101 (violated, always).** Whenever a path begins another one as a string without being above it, removing the node at
the first one loses every chunk of the array at the other one on a store that takes prefixes as strings, whatever is
stored; on the map of C70 no chunk of that array changes. -/
theorem C101_violated_always (env : Env) (h : Hier) (md : List Str → ArrayMetadata) (s : List (Str × Bytes)) {p q : Str}
    (hp : Tidy p) (hq : Tidy q) (hpre : ['/'].intercalate (segs p) <+: ['/'].intercalate (segs q))
    (hnot : ¬ segs p <+: segs q) (t : RsType) {pos : List Nat} (hin : (md (segs q)).inBounds pos = .ok true) :
    results literal env h md [.call (.call (.remove p)), .call (.call (.readChunk q t pos))] s =
      [.ok (.plain (.plain (.unit (.ok ())))), .ok (.plain (.plain (.data (.ok none))))] ∧
    ∀ a : AbsHier, ((HCall.remove p).abs a).2.chunk (segs q) = a.chunk (segs q) := by
  constructor
  · have ha : assertInBounds (md (segs q)) pos = .ok () := by
      unfold assertInBounds; rw [hin]; rfl
    have hkey : (dataPathKey p).isPrefixOf (chunkKey q (md (segs q)) pos) = true := by
      rw [List.isPrefixOf_iff_prefix, dataPathKey_eq, chunkKey_str, hp.canonical, hq.canonical]
      refine List.prefix_append_right_inj _ |>.mpr ?_
      split
      · rename_i e
        rw [e, List.prefix_nil] at hpre
        rw [hpre]; exact List.nil_prefix
      · exact hpre.trans (List.prefix_append _ _)
    have hgone : ∀ s : List (Str × Bytes), valueOf (s.filter fun e => !(dataPathKey p).isPrefixOf e.1)
        (chunkKey q (md (segs q)) pos) = none := by
      intro s
      rw [valueOf_filter (fun k => !(dataPathKey p).isPrefixOf k), hkey]
      rfl
    have hread : Threads.readChunk env q (md (segs q)) t pos = (do
        let v ← Threads.pGet (chunkKey q (md (segs q)) pos)
        match v with
        | none => pure none
        | some b => do
          let c ← Threads.pLift (readChunkBytes env.codecs env.native (md (segs q)) t pos b)
          pure (some c)) := by
      unfold Threads.readChunk
      rw [ha]
      rfl
    obtain ⟨K, hK, hK'⟩ : ∃ K, Wide.callProg env h md (.call (.call (.readChunk q t pos)))
          = .get (chunkKey q (md (segs q)) pos) K ∧
        K (.ok none) = .done (.ok (.plain (.plain (.data (.ok none))))) := by
      simp only [Wide.callProg, Threads.HCall.prog, hread]
      exact ⟨_, rfl, rfl⟩
    have hlast : ∀ s, valueOf s (chunkKey q (md (segs q)) pos) = none →
        (literal.run (Wide.callProg env h md (.call (.call (.readChunk q t pos)))) s).1
          = .ok (.plain (.plain (.data (.ok none)))) := by
      intro s hv
      rw [hK]
      show (literal.run (K (.ok (valueOf s _))) s).1 = _
      rw [hv, hK']
      rfl
    exact List.cons_eq_cons.mpr ⟨rfl, List.cons_eq_cons.mpr ⟨hlast _ (hgone _), rfl⟩⟩
  · intro a
    funext pos
    simp [HCall.abs, hnot]

/-- The paths of the history above are such. -/
example : Tidy str!"a" ∧ Tidy str!"ab" ∧ ['/'].intercalate (segs str!"a") <+: ['/'].intercalate (segs str!"ab") ∧
    ¬ segs str!"a" <+: segs str!"ab" ∧ Demo.arr.inBounds [1] = .ok true :=
  ⟨⟨0, 0, rfl⟩, ⟨0, 0, rfl⟩, by decide, by decide, by decide⟩

/-- **C101** On a store that keeps the value of each key and takes prefixes as strings, every history of the calls of C81
gives the results that it gives on the map of C70. Proved for histories in which a path that is removed begins, as a
string, no other path than those at and below it. Missing: the others, where it is false (`C101_violated`), and
`list_nodes`. -/
theorem C101_partial {σ : Type} (S : Store σ) (inv : σ → Prop) (view : σ → Str → Option Bytes) (s : σ) (env : Env) (h : Hier)
    (md : List Str → ArrayMetadata) (fill : List Str → (t : RsType) → El t) (calls : List BCall)
    (hj : env.json.Lawful) (hb : Plain (segs h.base)) (hsfx : GoodSuffix h.entry)
    (hdot : '.' ∉ stripDot h.entry.metadataKeySuffix) (hs : ∀ q, GoodSep (md q).separator)
    (hS : KeepsValues S inv view (SeenKey h md (PathOf calls)) (FileKey h md (PathOf calls)) (Removed calls)
      (fun p k => p <+: k))
    (hi : inv s) (hempty : ∀ k, SeenKey h md (PathOf calls) k → view s k = none)
    (hok : ∀ c ∈ calls, c.Ok env h md fill) (htidy : ∀ p, PathOf calls p → Tidy p) (hsafe : PrefixSafe calls) :
    results S env h md (calls.map .call) s = (bAbsResults md fill calls AbsHier.empty).map fun r => .ok (.plain r) := by
  have u : Usable h md (PathOf calls) := ⟨hb, hsfx, hdot, hs, fun p hp => ⟨?_, htidy p hp⟩⟩
  · refine C100 S inv view s env h md fill calls hj hb hsfx hdot hs ?_ hi hempty hok htidy
    have e : ∀ p k, Removed calls p → SeenKey h md (PathOf calls) k → (p <+: k ↔ segs p <+: segs k) := by
      rintro p k ⟨q, hq, rfl⟩ hk
      exact literal_under u ⟨_, hq, rfl⟩ (hsafe q hq) hk
    exact { hS with
      erasePrefix := fun p s hp hi => ⟨(hS.erasePrefix p s hp hi).1, (hS.erasePrefix p s hp hi).2.1, fun k hk => by
        rw [← e p k hp hk]; exact (hS.erasePrefix p s hp hi).2.2 k hk⟩ }
  · obtain ⟨c, hc, rfl⟩ := hp
    exact path_ordinary (hok c hc)

/-- The history above is one. -/
example : results literal Demo.envJ Demo.hier (fun _ => Demo.arr) (demoHistory.map .call) [] =
    (bAbsResults (fun _ => Demo.arr) Demo.fills demoHistory AbsHier.empty).map fun r => .ok (.plain r) := by
  refine C101_partial literal (fun _ => True) valueOf [] Demo.envJ Demo.hier
    (fun _ => Demo.arr) Demo.fills demoHistory jsonText_lawful (by decide) (by unfold GoodSuffix; decide) (by decide)
    (fun _ => .inl rfl) ((memory_keeps _ _ _ _).mono (fun _ hk => hk) (fun _ hk => hk) (fun _ hk => hk)
      fun p k => List.isPrefixOf_iff_prefix.symm) trivial (fun _ _ => rfl) demoHistory_ok (tidy_of (by decide)) ?_
  intro p hp q hq
  have hp : p = str!"a" := by simpa [demoHistory] using hp
  subst hp
  obtain ⟨c, hc, rfl⟩ := hq
  simp only [demoHistory, List.mem_cons, List.not_mem_nil, or_false] at hc
  rcases hc with rfl | rfl | rfl | rfl | rfl | rfl | rfl | rfl | rfl | rfl | rfl | rfl <;> decide

end Zarr.Any
