import Verif.Model.AnyStore
import Verif.Lemmas.LinkedCalls
import Verif.Props.ThreadRemove
/-!
# The calls on any store

What a store has to do, and the simulation of a run on such a store by a run on a filesystem. -/

namespace Zarr.Any

open Zarr.Spec

/-! ## The specification -/

/-- A path that is written in the usual way: its names with one `/` between them, and any number before and after. -/
def Spec.Tidy (p : Str) : Prop :=
  ∃ a b, p = List.replicate a '/' ++ [ '/' ].intercalate (segs p) ++ List.replicate b '/'

/-- The keys of the documents and chunks of the paths in `Q`. -/
inductive Spec.FileKey (h : Hier) (md : List Str → ArrayMetadata) (Q : Str → Prop) : Str → Prop
  | array (p : Str) : Q p → FileKey h md Q (arrayMetadataKey h.entry p)
  | group (p : Str) : Q p → FileKey h md Q (groupMetadataKey h.entry p)
  | chunk (p : Str) (pos : List Nat) : Q p → pos.length = (md (segs p)).shape.length →
      FileKey h md Q (chunkKey p (md (segs p)) pos)

/-- These keys, and those at which `exists` looks for implicit groups (storage.rs:185-192). -/
inductive Spec.SeenKey (h : Hier) (md : List Str → ArrayMetadata) (Q : Str → Prop) : Str → Prop
  | file {k : Str} : FileKey h md Q k → SeenKey h md Q k
  | implicit (p : Str) : Q p → SeenKey h md Q (setExtension (setExtension (groupMetadataKey h.entry p) []) [])

/-- The store keeps a value for each key: `view s` are the values, `inv` is an invariant of its state. `under p k` says
that erasing the prefix `p` erases the key `k`. Nothing is said of other keys, of `set` with a closure that fails, and of
`list_dir`. -/
structure Spec.KeepsValues {σ : Type} (S : Store σ) (inv : σ → Prop) (view : σ → Str → Option Bytes)
    (Seen File Pre : Str → Prop) (under : Str → Str → Prop) : Prop where
  has : ∀ k s, Seen k → inv s → (S.has k s).1 = .ok (view s k).isSome ∧ inv (S.has k s).2 ∧
    ∀ k', Seen k' → view (S.has k s).2 k' = view s k'
  get : ∀ k s, Seen k → inv s → (S.get k s).1 = .ok (view s k) ∧ inv (S.get k s).2 ∧
    ∀ k', Seen k' → view (S.get k s).2 k' = view s k'
  set : ∀ k b s, File k → inv s → (S.set k (b, .ok ()) s).1 = .ok () ∧ inv (S.set k (b, .ok ()) s).2 ∧
    ∀ k', Seen k' → view (S.set k (b, .ok ()) s).2 k' = if k' = k then some b else view s k'
  erase : ∀ k s, File k → inv s → (S.erase k s).1 = .ok true ∧ inv (S.erase k s).2 ∧
    ∀ k', Seen k' → view (S.erase k s).2 k' = if k' = k then none else view s k'
  erasePrefix : ∀ p s, Pre p → inv s → (∃ b, (S.erasePrefix p s).1 = .ok b) ∧ inv (S.erasePrefix p s).2 ∧
    ∀ k, Seen k → (under p k → view (S.erasePrefix p s).2 k = none) ∧
      (¬ under p k → view (S.erasePrefix p s).2 k = view s k)

/-- The results of calls made one after the other on a store. -/
def Spec.results {σ : Type} (S : Store σ) (env : Env) (h : Hier) (md : List Str → ArrayMetadata) :
    List WCall → σ → List (Outcome WResult)
  | [], _ => []
  | c :: cs, s => (S.run (Wide.callProg env h md c) s).1 ::
      results S env h md cs (S.run (Wide.callProg env h md c) s).2

open Any.Spec

theorem Spec.KeepsValues.mono {σ : Type} {S : Store σ} {inv : σ → Prop} {view : σ → Str → Option Bytes}
    {Seen File Pre Seen' File' Pre' : Str → Prop} {under under' : Str → Str → Prop}
    (hS : KeepsValues S inv view Seen File Pre under) (h1 : ∀ k, Seen' k → Seen k) (h2 : ∀ k, File' k → File k)
    (h3 : ∀ k, Pre' k → Pre k) (h4 : ∀ p k, under' p k ↔ under p k) :
    KeepsValues S inv view Seen' File' Pre' under' where
  has k s hk hi := ⟨(hS.has k s (h1 k hk) hi).1, (hS.has k s (h1 k hk) hi).2.1, fun k' hk' =>
    (hS.has k s (h1 k hk) hi).2.2 k' (h1 k' hk')⟩
  get k s hk hi := ⟨(hS.get k s (h1 k hk) hi).1, (hS.get k s (h1 k hk) hi).2.1, fun k' hk' =>
    (hS.get k s (h1 k hk) hi).2.2 k' (h1 k' hk')⟩
  set k b s hk hi := ⟨(hS.set k b s (h2 k hk) hi).1, (hS.set k b s (h2 k hk) hi).2.1, fun k' hk' =>
    (hS.set k b s (h2 k hk) hi).2.2 k' (h1 k' hk')⟩
  erase k s hk hi := ⟨(hS.erase k s (h2 k hk) hi).1, (hS.erase k s (h2 k hk) hi).2.1, fun k' hk' =>
    (hS.erase k s (h2 k hk) hi).2.2 k' (h1 k' hk')⟩
  erasePrefix p s hp hi := ⟨(hS.erasePrefix p s (h3 p hp) hi).1, (hS.erasePrefix p s (h3 p hp) hi).2.1, fun k hk =>
    ⟨fun e => ((hS.erasePrefix p s (h3 p hp) hi).2.2 k (h1 k hk)).1 ((h4 p k).mp e),
     fun e => ((hS.erasePrefix p s (h3 p hp) hi).2.2 k (h1 k hk)).2 fun e' => e ((h4 p k).mpr e')⟩⟩

/-! ## Keys -/

section
variable {h : Hier} {md : List Str → ArrayMetadata} {Q : Str → Prop}

theorem intercalate_two (a b : Str) (l : List Str) :
    ['/'].intercalate (a :: b :: l) = a ++ '/' :: ['/'].intercalate (b :: l) := by
  simp [List.intercalate, List.intersperse]

theorem intercalate_ends {ns : List Str} (hn : ∀ s ∈ ns, '/' ∉ s ∧ s ≠ []) (h0 : ns ≠ []) :
    (∃ c r, ['/'].intercalate ns = c :: r ∧ c ≠ '/') ∧ ∃ r c, ['/'].intercalate ns = r ++ [c] ∧ c ≠ '/' := by
  induction ns with
  | nil => exact absurd rfl h0
  | cons a l ih =>
    obtain ⟨ha, ha0⟩ := hn a (by simp)
    obtain ⟨c, r, rfl⟩ : ∃ c r, a = c :: r := List.exists_cons_of_ne_nil ha0
    have hc : c ≠ '/' := fun e => ha (by simp [e])
    cases l with
    | nil =>
      have e : ['/'].intercalate [c :: r] = c :: r := by simp [List.intercalate]
      refine ⟨⟨c, r, e, hc⟩, (c :: r).dropLast, (c :: r).getLast (by simp), ?_, ?_⟩
      · rw [e]; exact (List.dropLast_concat_getLast _).symm
      · exact fun e => ha (e ▸ List.getLast_mem (by simp))
    | cons b l =>
      obtain ⟨_, r', c', e', hc'⟩ := ih (fun s hs => hn s (by simp [hs])) (by simp)
      rw [intercalate_two]
      exact ⟨⟨c, _, rfl, hc⟩, (c :: r) ++ '/' :: r', c', by rw [e']; simp, hc'⟩

theorem trimStart_replicate (a : Nat) (x : Str) : trimStart '/' (List.replicate a '/' ++ x) = trimStart '/' x := by
  induction a with
  | zero => rfl
  | succ a ih => simpa [List.replicate_succ, trimStart] using ih

theorem trimEnd_replicate (b : Nat) (x : Str) : trimEnd '/' (x ++ List.replicate b '/') = trimEnd '/' x := by
  have := trimStart_replicate b x.reverse
  unfold trimStart at this
  unfold trimEnd
  rw [List.reverse_append, List.reverse_replicate, this]

theorem Spec.Tidy.canonical {p : Str} (hp : Tidy p) : canonicalizePath p = ['/'].intercalate (segs p) := by
  obtain ⟨a, b, e⟩ := hp
  generalize hn : segs p = ns at e
  have hns : ∀ s ∈ ns, '/' ∉ s ∧ s ≠ [] := fun s hs => by
    rw [← hn] at hs; exact ⟨(mem_segs hs).1, (mem_segs hs).2.1⟩
  unfold canonicalizePath
  rw [e, List.append_assoc, trimStart_replicate]
  by_cases h0 : ns = []
  · subst h0
    have : ∀ b, trimStart '/' (List.replicate b '/') = [] := fun b => by
      have := trimStart_replicate b []
      rw [List.append_nil] at this
      rw [this]; rfl
    simp [List.intercalate, this, trimEnd]
  · obtain ⟨⟨c, r, e1, h1⟩, r', c', e2, h2⟩ := intercalate_ends hns h0
    rw [show trimStart '/' (['/'].intercalate ns ++ List.replicate b '/') = ['/'].intercalate ns ++ List.replicate b '/' by
      rw [e1]; simp [trimStart, h1]]
    rw [trimEnd_replicate, e2]
    simp [trimEnd, h2]

/-- Tidy paths with the same names have the same keys. -/
theorem canonical_congr {p q : Str} (hp : Tidy p) (hq : Tidy q) (e : segs p = segs q) :
    canonicalizePath p = canonicalizePath q := by
  rw [hp.canonical, hq.canonical, e]

theorem arrayKey_congr {p q : Str} (e : canonicalizePath p = canonicalizePath q) :
    arrayMetadataKey h.entry p = arrayMetadataKey h.entry q := by
  unfold arrayMetadataKey; rw [e]

theorem groupKey_congr {p q : Str} (e : canonicalizePath p = canonicalizePath q) :
    groupMetadataKey h.entry p = groupMetadataKey h.entry q := by
  unfold groupMetadataKey; rw [e]

theorem chunkKey_congr {p q : Str} (e : canonicalizePath p = canonicalizePath q) {m m' : ArrayMetadata}
    (hm : m.separator = m'.separator) (pos : List Nat) : chunkKey p m pos = chunkKey q m' pos := by
  unfold chunkKey; rw [e, hm]

/-- What the keys need to be told apart by their locations. -/
structure Usable (h : Hier) (md : List Str → ArrayMetadata) (Q : Str → Prop) : Prop where
  base : Plain (segs h.base)
  suffix : GoodSuffix h.entry
  dot : '.' ∉ stripDot h.entry.metadataKeySuffix
  sep : ∀ q, GoodSep (md q).separator
  paths : ∀ p, Q p → OrdinaryPath h p ∧ Tidy p

theorem Usable.fileLoc (u : Usable h md Q) {k : Str} (hk : FileKey h md Q k) : FileLoc h md (h.loc k) := by
  cases hk with
  | array p hp => rw [loc_arrayKey u.suffix (u.paths p hp).1.plain]; exact .array p (u.paths p hp).1
  | group p hp => rw [loc_groupKey u.suffix (u.paths p hp).1.plain]; exact .group p (u.paths p hp).1
  | chunk p pos hp hl => exact .chunk p pos (u.paths p hp).1 hl

theorem Usable.implicit (u : Usable h md Q) {p : Str} (hp : Q p) :
    h.loc (setExtension (setExtension (groupMetadataKey h.entry p) []) []) = implicitLoc h p := by
  rw [Hier.loc, segs_implicitKey u.suffix u.dot (u.paths p hp).1.plain]; rfl

theorem Usable.plainFile (u : Usable h md Q) {k : Str} (hk : FileKey h md Q k) : Plain (h.loc k) := by
  cases hk with
  | array p hp =>
    rw [loc_arrayKey u.suffix (u.paths p hp).1.plain]; exact plain_docLoc u.base (u.paths p hp).1.plain (by simp)
  | group p hp =>
    rw [loc_groupKey u.suffix (u.paths p hp).1.plain]; exact plain_docLoc u.base (u.paths p hp).1.plain (by simp)
  | chunk p pos hp hl => exact plain_loc_chunk u.base (u.paths p hp).1.plain (u.sep _) pos

theorem Usable.plain (u : Usable h md Q) {k : Str} (hk : SeenKey h md Q k) : Plain (h.loc k) := by
  cases hk with
  | file hk => exact u.plainFile hk
  | implicit p hp => rw [u.implicit hp]; exact u.base.append (Plain.append (by decide) (u.paths p hp).1.plain)

/-- Different keys have different locations. -/
theorem Usable.inj (u : Usable h md Q) {k k' : Str} (hk : FileKey h md Q k) (hk' : SeenKey h md Q k')
    (e : h.loc k' = h.loc k) : k' = k := by
  cases hk' with
  | implicit p hp =>
    exfalso
    rw [u.implicit hp] at e
    exact Threads.implicit_not_file u.sep (u.paths p hp).1 (e ▸ u.fileLoc hk)
  | file hk' =>
    cases hk with
    | array p hp =>
      rw [loc_arrayKey u.suffix (u.paths p hp).1.plain] at e
      cases hk' with
      | array q hq =>
        rw [loc_arrayKey u.suffix (u.paths q hq).1.plain] at e
        exact arrayKey_congr (canonical_congr (u.paths q hq).2 (u.paths p hp).2 (docLoc_injective e))
      | group q hq =>
        rw [loc_groupKey u.suffix (u.paths q hq).1.plain] at e
        exact absurd e.symm docLoc_array_ne_group
      | chunk q pos hq hl => exact absurd e.symm docLoc_ne_chunk
    | group p hp =>
      rw [loc_groupKey u.suffix (u.paths p hp).1.plain] at e
      cases hk' with
      | array q hq =>
        rw [loc_arrayKey u.suffix (u.paths q hq).1.plain] at e
        exact absurd e docLoc_array_ne_group
      | group q hq =>
        rw [loc_groupKey u.suffix (u.paths q hq).1.plain] at e
        exact groupKey_congr (canonical_congr (u.paths q hq).2 (u.paths p hp).2 (docLoc_injective e))
      | chunk q pos hq hl => exact absurd e.symm docLoc_ne_chunk
    | chunk p pos hp hl =>
      cases hk' with
      | array q hq =>
        rw [loc_arrayKey u.suffix (u.paths q hq).1.plain] at e
        exact absurd e docLoc_ne_chunk
      | group q hq =>
        rw [loc_groupKey u.suffix (u.paths q hq).1.plain] at e
        exact absurd e docLoc_ne_chunk
      | chunk q pos' hq hl' =>
        have e := List.append_cancel_left (show segs h.base ++ _ = segs h.base ++ _ from e)
        rw [segs_chunkKey, segs_chunkKey] at e
        simp only [List.cons.injEq, true_and] at e
        obtain ⟨e1, e2⟩ := chunkTail_split (u.sep _) (u.sep _) e
        rw [e1] at e2 ⊢
        rw [chunkTail_injective (u.sep _) e2]
        exact chunkKey_congr (canonical_congr (u.paths q hq).2 (u.paths p hp).2 e1) rfl pos

end

/-! ## Programs -/

/-- The program looks at keys in `R`, changes keys in `W` and erases prefixes in `D`, whose result it ignores; it
lists nothing. -/
def On {α : Type} (R W D : Str → Prop) : Wide.Prog α → Prop
  | .done _ => True
  | .exists key k => R key ∧ ∀ r, On R W D (k r)
  | .get key k => R key ∧ ∀ r, On R W D (k r)
  | .set key _ k => W key ∧ ∀ r, On R W D (k r)
  | .erase key k => W key ∧ ∀ r, On R W D (k r)
  | .erasePrefix key k => D key ∧ (∀ b b', k (.ok b) = k (.ok b')) ∧ ∀ r, On R W D (k r)
  | .listDir _ _ => False

/-- No closure given to `set` fails when the program runs on the filesystem. -/
def Clean {α : Type} (h : Hier) : Wide.Prog α → Fs → Prop
  | .done _, _ => True
  | .exists key k, fs => Clean h (k (storeExists h key fs).1) (storeExists h key fs).2
  | .get key k, fs => Clean h (k (storeGet h key fs).1) (storeGet h key fs).2
  | .set key v k, fs => v.2 = .ok () ∧ Clean h (k (storeSet h key v fs).1) (storeSet h key v fs).2
  | .erase key k, fs => Clean h (k (storeErase h key fs).1) (storeErase h key fs).2
  | .erasePrefix key k, fs => Clean h (k (storeErasePrefix h key fs).1) (storeErasePrefix h key fs).2
  | .listDir pre k, fs => Clean h (k (storeListDir h pre fs).1) (storeListDir h pre fs).2

section
variable {α β : Type} {R W D : Str → Prop} {h : Hier}

theorem on_bind {p : Wide.Prog α} {f : α → Wide.Prog β} (hp : On R W D p) (hf : ∀ a, On R W D (f a)) :
    On R W D (p.bind f) := by
  induction p with
  | done r => cases r <;> first | exact hf _ | trivial
  | «exists» key k ih => exact ⟨hp.1, fun r => ih r (hp.2 r)⟩
  | get key k ih => exact ⟨hp.1, fun r => ih r (hp.2 r)⟩
  | set key v k ih => exact ⟨hp.1, fun r => ih r (hp.2 r)⟩
  | erase key k ih => exact ⟨hp.1, fun r => ih r (hp.2 r)⟩
  | erasePrefix key k ih => exact ⟨hp.1, fun b b' => congrArg (Wide.Prog.bind · f) (hp.2.1 b b'), fun r => ih r (hp.2.2 r)⟩
  | listDir key k ih => exact hp.elim

theorem on_record {p : Wide.Prog α} {f : Outcome α → β} (hp : On R W D p) : On R W D (p.record f) := by
  induction p with
  | done r => trivial
  | «exists» key k ih => exact ⟨hp.1, fun r => ih r (hp.2 r)⟩
  | get key k ih => exact ⟨hp.1, fun r => ih r (hp.2 r)⟩
  | set key v k ih => exact ⟨hp.1, fun r => ih r (hp.2 r)⟩
  | erase key k ih => exact ⟨hp.1, fun r => ih r (hp.2 r)⟩
  | erasePrefix key k ih => exact ⟨hp.1, fun b b' => congrArg (Wide.Prog.record f) (hp.2.1 b b'), fun r => ih r (hp.2.2 r)⟩
  | listDir key k ih => exact hp.elim

theorem clean_bind {p : Wide.Prog α} {f : α → Wide.Prog β} {fs : Fs} (hp : Clean h p fs)
    (hf : ∀ a, (p.run h fs).1 = .ok a → Clean h (f a) (p.run h fs).2) : Clean h (p.bind f) fs := by
  induction p generalizing fs with
  | done r =>
    cases r with
    | ok a => exact hf a rfl
    | err e => trivial
    | panic => trivial
  | set key v k ih => exact ⟨hp.1, ih _ hp.2 hf⟩
  | _ => rename_i ih; exact ih _ hp hf

theorem clean_record {p : Wide.Prog α} {f : Outcome α → β} {fs : Fs} (hp : Clean h p fs) : Clean h (p.record f) fs := by
  induction p generalizing fs with
  | done r => trivial
  | set key v k ih => exact ⟨hp.1, ih _ hp.2⟩
  | _ => rename_i ih; exact ih _ hp

/-- The keys of a program of the smaller language. -/
def OnT (R W : Str → Prop) : Threads.Prog α → Prop
  | .done _ => True
  | .exists key k => R key ∧ ∀ r, OnT R W (k r)
  | .get key k => R key ∧ ∀ r, OnT R W (k r)
  | .set key _ k => W key ∧ ∀ r, OnT R W (k r)
  | .erase key k => W key ∧ ∀ r, OnT R W (k r)

theorem on_of {p : Threads.Prog α} (hp : OnT R W p) : On R W D (Wide.Prog.of p) := by
  induction p with
  | done r => trivial
  | _ => rename_i ih; exact ⟨hp.1, fun r => ih r (hp.2 r)⟩

theorem OnT.bind {p : Threads.Prog α} {f : α → Threads.Prog β} (hp : OnT R W p) (hf : ∀ a, OnT R W (f a)) :
    OnT R W (p >>= f) := by
  rw [Threads.Prog.bind_def]
  induction p with
  | done r => cases r <;> first | exact hf _ | trivial
  | _ => rename_i ih; exact ⟨hp.1, fun r => ih r (hp.2 r)⟩

theorem OnT.record {p : Threads.Prog α} {f : Outcome α → β} (hp : OnT R W p) : OnT R W (p.record f) := by
  induction p with
  | done r => trivial
  | _ => rename_i ih; exact ⟨hp.1, fun r => ih r (hp.2 r)⟩

theorem OnT.ite {c : Prop} [Decidable c] {p q : Threads.Prog α} (hp : OnT R W p) (hq : OnT R W q) :
    OnT R W (if c then p else q) := by split <;> assumption

theorem onT_lift (r : Outcome α) : OnT R W (Threads.pLift r) := trivial
theorem onT_pure (a : α) : OnT R W (pure a : Threads.Prog α) := trivial
theorem onT_exists {key : Str} (hk : R key) : OnT R W (Threads.pExists key) := ⟨hk, fun _ => trivial⟩
theorem onT_get {key : Str} (hk : R key) : OnT R W (Threads.pGet key) := ⟨hk, fun _ => trivial⟩
theorem onT_set {key : Str} {v : Bytes × Outcome Unit} (hk : W key) : OnT R W (Threads.pSet key v) := ⟨hk, fun _ => trivial⟩
theorem onT_erase {key : Str} (hk : W key) : OnT R W (Threads.pErase key) := ⟨hk, fun _ => trivial⟩

/-- Every closure given to `set` succeeds, whatever the calls return. -/
def Sure : Threads.Prog α → Prop
  | .done _ => True
  | .exists _ k => ∀ r, Sure (k r)
  | .get _ k => ∀ r, Sure (k r)
  | .set _ v k => v.2 = .ok () ∧ ∀ r, Sure (k r)
  | .erase _ k => ∀ r, Sure (k r)

theorem clean_of {p : Threads.Prog α} (hp : Sure p) (fs : Fs) : Clean h (Wide.Prog.of p) fs := by
  induction p generalizing fs with
  | done r => trivial
  | set key v k ih => exact ⟨hp.1, ih _ (hp.2 _) _⟩
  | _ => rename_i ih; exact ih _ (hp _) _

theorem sure_reads {p : Threads.Prog α} (hp : p.Uses h (fun _ => True) (fun _ => False)) : Sure p := by
  induction p with
  | done r => trivial
  | «exists» key k ih => exact fun r => ih r (hp.2.2 r)
  | get key k ih => exact fun r => ih r (hp.2.2 r)
  | set key v k ih => exact hp.2.1.elim
  | erase key k ih => exact hp.2.1.elim

theorem Sure.bind {p : Threads.Prog α} {f : α → Threads.Prog β} (hp : Sure p) (hf : ∀ a, Sure (f a)) :
    Sure (p >>= f) := by
  rw [Threads.Prog.bind_def]
  induction p with
  | done r => cases r <;> first | exact hf _ | trivial
  | set key v k ih => exact ⟨hp.1, fun r => ih r (hp.2 r)⟩
  | _ => rename_i ih; exact fun r => ih r (hp r)

theorem Sure.record {p : Threads.Prog α} {f : Outcome α → β} (hp : Sure p) : Sure (p.record f) := by
  induction p with
  | done r => trivial
  | set key v k ih => exact ⟨hp.1, fun r => ih r (hp.2 r)⟩
  | _ => rename_i ih; exact fun r => ih r (hp r)

theorem Sure.ite {c : Prop} [Decidable c] {p q : Threads.Prog α} (hp : Sure p) (hq : Sure q) :
    Sure (if c then p else q) := by split <;> assumption

theorem sure_lift (r : Outcome α) : Sure (Threads.pLift r) := trivial
theorem sure_pure (a : α) : Sure (pure a : Threads.Prog α) := trivial
theorem sure_exists (key : Str) : Sure (Threads.pExists key) := fun _ => trivial
theorem sure_get (key : Str) : Sure (Threads.pGet key) := fun _ => trivial
theorem sure_set {key : Str} {v : Bytes × Outcome Unit} (hv : v.2 = .ok ()) : Sure (Threads.pSet key v) :=
  ⟨hv, fun _ => trivial⟩

/-- If the program succeeds, no closure given to `set` failed. -/
def Honest (h : Hier) (p : Threads.Prog α) : Prop :=
  ∀ fs a, (p.run h fs).1 = .ok a → Clean h (Wide.Prog.of p) fs

theorem Sure.honest {p : Threads.Prog α} (hp : Sure p) : Honest h p := fun fs _ _ => clean_of hp fs

theorem of_bind (p : Threads.Prog α) (f : α → Threads.Prog β) :
    Wide.Prog.of (p >>= f) = (Wide.Prog.of p).bind fun a => Wide.Prog.of (f a) := by
  rw [Threads.Prog.bind_def]
  induction p with
  | done r => cases r <;> rfl
  | «exists» key k ih => exact congrArg (Wide.Prog.exists key) (funext ih)
  | get key k ih => exact congrArg (Wide.Prog.get key) (funext ih)
  | set key v k ih => exact congrArg (Wide.Prog.set key v) (funext ih)
  | erase key k ih => exact congrArg (Wide.Prog.erase key) (funext ih)

theorem Honest.bind {p : Threads.Prog α} {f : α → Threads.Prog β} (hp : Honest h p) (hf : ∀ a, Honest h (f a)) :
    Honest h (p >>= f) := by
  intro fs b hb
  rw [Threads.Prog.run_bind] at hb
  rw [of_bind]
  cases hr : (p.run h fs).1 with
  | err e =>
    have : p.run h fs = (.err e, (p.run h fs).2) := Prod.ext hr rfl
    rw [M.bind_apply, this] at hb; simp at hb
  | panic =>
    have : p.run h fs = (.panic, (p.run h fs).2) := Prod.ext hr rfl
    rw [M.bind_apply, this] at hb; simp at hb
  | ok a =>
    have e : p.run h fs = (.ok a, (p.run h fs).2) := Prod.ext hr rfl
    rw [M.bind_apply, e] at hb
    refine clean_bind (hp fs a hr) fun a' ha' => ?_
    rw [Wide.run_of] at ha' ⊢
    rw [hr] at ha'
    cases ha'
    exact hf a _ b hb

theorem honest_set (key : Str) (v : Bytes × Outcome Unit) : Honest h (Threads.pSet key v) := by
  intro fs a ha
  refine ⟨?_, trivial⟩
  have ha : (storeSet h key v fs).1 = .ok a := ha
  unfold storeSet at ha
  dsimp only at ha
  repeat' split at ha
  all_goals first | (simp at ha; done) | exact ha

theorem Honest.ite {c : Prop} [Decidable c] {p q : Threads.Prog α} (hp : Honest h p) (hq : Honest h q) :
    Honest h (if c then p else q) := by split <;> assumption

end

/-! ## The keys of the calls -/

section
variable {α : Type} {R W D : Str → Prop} {env : Env} {h : Hier} {path : Str} {m : ArrayMetadata} {t : RsType}

theorem onT_key {f : Str → Threads.Prog α} (ha : R (arrayMetadataKey h.entry path)) (hg : R (groupMetadataKey h.entry path))
    (fa : OnT R W (f (arrayMetadataKey h.entry path))) (fg : OnT R W (f (groupMetadataKey h.entry path))) :
    OnT R W (Threads.nodeMetadataKey h path >>= f) := by
  refine ⟨ha, fun r => ?_⟩
  cases r with
  | err e => trivial
  | panic => trivial
  | ok a =>
    cases a with
    | true => exact fa
    | false =>
      refine ⟨hg, fun r => ?_⟩
      cases r with
      | err e => trivial
      | panic => trivial
      | ok b =>
        cases b with
        | true => exact fg
        | false => trivial

theorem onT_getArrayMetadata (ha : R (arrayMetadataKey h.entry path)) : OnT R W (Threads.getArrayMetadata env h path) :=
  (onT_get ha).bind fun _ => (onT_lift _).bind fun _ => onT_lift _

theorem onT_listAttributes (ha : R (arrayMetadataKey h.entry path)) (hg : R (groupMetadataKey h.entry path)) :
    OnT R W (Threads.listAttributes env h path) :=
  onT_key ha hg
    ((onT_get ha).bind fun _ => (onT_lift _).bind fun _ => (onT_lift _).bind fun _ => onT_lift _)
    ((onT_get hg).bind fun _ => (onT_lift _).bind fun _ => (onT_lift _).bind fun _ => onT_lift _)

theorem onT_setAttributes {b : JsonObject} (ha : R (arrayMetadataKey h.entry path)) (hg : R (groupMetadataKey h.entry path))
    (wa : W (arrayMetadataKey h.entry path)) (wg : W (groupMetadataKey h.entry path)) :
    OnT R W (Threads.setAttributes env h path b) :=
  onT_key ha hg
    ((onT_get ha).bind fun _ => (onT_lift _).bind fun _ => (onT_lift _).bind fun _ => (onT_lift _).bind fun _ =>
      .ite (onT_set wa) (onT_pure _))
    ((onT_get hg).bind fun _ => (onT_lift _).bind fun _ => (onT_lift _).bind fun _ => (onT_lift _).bind fun _ =>
      .ite (onT_set wg) (onT_pure _))

theorem sure_setAttributes {b : JsonObject} : Sure (Threads.setAttributes env h path b) :=
  Sure.bind ((sure_exists _).bind fun _ => .ite (sure_pure _) ((sure_exists _).bind fun _ => .ite (sure_pure _) (sure_lift _)))
    fun _ => (sure_get _).bind fun _ => (sure_lift _).bind fun _ => (sure_lift _).bind fun _ => (sure_lift _).bind fun _ =>
      .ite (sure_set rfl) (sure_pure _)

theorem onT_createGroup (ha : R (arrayMetadataKey h.entry path)) (hg : R (groupMetadataKey h.entry path))
    (wg : W (groupMetadataKey h.entry path)) : OnT R W (Threads.createGroup env h path) :=
  (onT_exists ha).bind fun _ => .ite (onT_lift _) ((onT_exists hg).bind fun _ => .ite (onT_pure _) (onT_set wg))

theorem sure_createGroup : Sure (Threads.createGroup env h path) :=
  (sure_exists _).bind fun _ => .ite (sure_lift _) ((sure_exists _).bind fun _ => .ite (sure_pure _) (sure_set rfl))

theorem onT_createArray (ha : R (arrayMetadataKey h.entry path)) (hg : R (groupMetadataKey h.entry path))
    (wa : W (arrayMetadataKey h.entry path)) : OnT R W (Threads.createArray env h path m) :=
  (onT_exists hg).bind fun _ => .ite (onT_lift _) ((onT_exists ha).bind fun _ => .ite (onT_lift _) (onT_set wa))

theorem sure_createArray (hm : (arrayMetadataText env m).2 = .ok ()) : Sure (Threads.createArray env h path m) :=
  (sure_exists _).bind fun _ => .ite (sure_lift _) ((sure_exists _).bind fun _ => .ite (sure_lift _) (sure_set hm))

theorem onT_nodeExists (ha : R (arrayMetadataKey h.entry path)) (hg : R (groupMetadataKey h.entry path))
    (hi : R (setExtension (setExtension (groupMetadataKey h.entry path) []) [])) : OnT R W (Threads.nodeExists h path) :=
  (onT_exists ha).bind fun _ => .ite (onT_pure _) ((onT_exists hg).bind fun _ => .ite (onT_pure _) (onT_exists hi))

theorem sure_nodeExists : Sure (Threads.nodeExists h path) :=
  (sure_exists _).bind fun _ => .ite (sure_pure _) ((sure_exists _).bind fun _ => .ite (sure_pure _) (sure_exists _))

theorem sure_getArrayMetadata : Sure (Threads.getArrayMetadata env h path) :=
  (sure_get _).bind fun _ => (sure_lift _).bind fun _ => sure_lift _

theorem onT_arrayExists (ha : R (arrayMetadataKey h.entry path)) (hg : R (groupMetadataKey h.entry path))
    (hi : R (setExtension (setExtension (groupMetadataKey h.entry path) []) [])) :
    OnT R W (Threads.arrayExists env h path) := by
  refine (onT_nodeExists ha hg hi).bind fun _ => .ite ?_ (onT_pure _)
  refine (onT_getArrayMetadata ha).record.bind fun r => ?_
  cases r <;> trivial

theorem sure_arrayExists : Sure (Threads.arrayExists env h path) := by
  refine sure_nodeExists.bind fun _ => .ite ?_ (sure_pure _)
  refine sure_getArrayMetadata.record.bind fun r => ?_
  cases r <;> trivial

theorem sure_listAttributes : Sure (Threads.listAttributes env h path) :=
  Sure.bind ((sure_exists _).bind fun _ => .ite (sure_pure _) ((sure_exists _).bind fun _ => .ite (sure_pure _) (sure_lift _)))
    fun _ => (sure_get _).bind fun _ => (sure_lift _).bind fun _ => (sure_lift _).bind fun _ => sure_lift _

theorem onT_readChunk {pos : List Nat} (hk : R (chunkKey path m pos)) : OnT R W (Threads.readChunk env path m t pos) := by
  refine (onT_lift _).bind fun _ => (onT_get hk).bind fun v => ?_
  cases v with
  | none => trivial
  | some b => exact (onT_lift _).bind fun _ => onT_pure _

theorem sure_readChunk {pos : List Nat} : Sure (Threads.readChunk env path m t pos) := by
  refine (sure_lift _).bind fun _ => (sure_get _).bind fun v => ?_
  cases v with
  | none => trivial
  | some b => exact (sure_lift _).bind fun _ => sure_pure _

theorem onT_readChunkInto {pos : List Nat} {buf : DataChunk t} (hk : R (chunkKey path m pos)) :
    OnT R W (Threads.readChunkInto env path m t pos buf) := by
  refine (onT_lift _).bind fun _ => (onT_get hk).bind fun v => ?_
  cases v with
  | none => trivial
  | some b => exact (onT_lift _).bind fun _ => onT_pure _

theorem sure_readChunkInto {pos : List Nat} {buf : DataChunk t} : Sure (Threads.readChunkInto env path m t pos buf) := by
  refine (sure_lift _).bind fun _ => (sure_get _).bind fun v => ?_
  cases v with
  | none => trivial
  | some b => exact (sure_lift _).bind fun _ => sure_pure _

theorem onT_readLoop {bbox : BBox} (coords : List (List Nat)) (arr : NdArr (El t)) (buf : Option (DataChunk t))
    (hr : ∀ pos ∈ coords, R (chunkKey path m pos)) : OnT R W (Threads.readLoop env path m t bbox coords arr buf) := by
  induction coords generalizing arr buf with
  | nil => exact onT_pure _
  | cons pos rest ih =>
    have ih' := fun arr buf => ih arr buf fun pos hp => hr pos (by simp [hp])
    have h0 := hr pos (by simp)
    unfold Threads.readLoop
    refine OnT.bind ?_ fun r => ?_
    · cases buf with
      | none => exact (onT_readChunk h0).bind fun _ => onT_pure _
      | some b => exact (onT_readChunkInto h0).bind fun _ => onT_pure _
    · split
      · exact (onT_lift _).bind fun _ => ih' _ _
      · exact ih' _ _

theorem sure_readLoop {bbox : BBox} (coords : List (List Nat)) (arr : NdArr (El t)) (buf : Option (DataChunk t)) :
    Sure (Threads.readLoop env path m t bbox coords arr buf) := by
  induction coords generalizing arr buf with
  | nil => exact sure_pure _
  | cons pos rest ih =>
    unfold Threads.readLoop
    refine Sure.bind ?_ fun r => ?_
    · cases buf with
      | none => exact sure_readChunk.bind fun _ => sure_pure _
      | some b => exact sure_readChunkInto.bind fun _ => sure_pure _
    · split
      · exact (sure_lift _).bind fun _ => ih _ _
      · exact ih _ _

theorem onT_readNdarray {bbox : BBox}
    (hr : ∀ it, m.boundedCoordIter bbox = .ok it → ∀ pos ∈ it.rest, R (chunkKey path m pos)) :
    OnT R W (Threads.readNdarray env path m t bbox) := by
  refine (onT_lift _).bind fun fill => OnT.bind (.ite (onT_lift _) (.ite (onT_lift _) ?_)) fun _ => onT_pure _
  cases hit : m.boundedCoordIter bbox with
  | ok it => exact onT_readLoop _ _ _ (hr it hit)
  | err e => exact trivial
  | panic => exact trivial

theorem sure_readNdarray {bbox : BBox} : Sure (Threads.readNdarray env path m t bbox) := by
  refine (sure_lift _).bind fun fill => Sure.bind (.ite (sure_lift _) (.ite (sure_lift _) ?_)) fun _ => sure_pure _
  exact (sure_lift _).bind fun _ => sure_readLoop _ _ _

theorem onT_writeCoord {bbox : BBox} {fill : El t} {array : NdArr (El t)} {pos : List Nat} {existing : List (El t)}
    (hr : R (chunkKey path m pos)) (hw : W (chunkKey path m pos)) :
    OnT R W (Threads.writeCoord env path m bbox fill array pos existing) := by
  refine (onT_lift _).bind fun _ => (onT_lift _).bind fun _ => (onT_lift _).bind fun _ => .ite ?_ ?_
  · exact OnT.bind (onT_set hw) fun _ => onT_pure _
  · refine (onT_readChunkInto hr).bind fun r => (onT_lift _).bind fun _ => (onT_lift _).bind fun _ =>
      (onT_lift _).bind fun _ => ?_
    exact OnT.bind (onT_set hw) fun _ => onT_pure _

theorem honest_writeCoord {bbox : BBox} {fill : El t} {array : NdArr (El t)} {pos : List Nat} {existing : List (El t)} :
    Honest h (Threads.writeCoord env path m bbox fill array pos existing) := by
  refine (sure_lift _).honest.bind fun _ => (sure_lift _).honest.bind fun _ => (sure_lift _).honest.bind fun _ => .ite ?_ ?_
  · exact Honest.bind (honest_set _ _) fun _ => (sure_pure _).honest
  · refine sure_readChunkInto.honest.bind fun r => (sure_lift _).honest.bind fun _ => (sure_lift _).honest.bind fun _ =>
      (sure_lift _).honest.bind fun _ => ?_
    exact Honest.bind (honest_set _ _) fun _ => (sure_pure _).honest

theorem onT_writeLoop {bbox : BBox} {fill : El t} {array : NdArr (El t)} (coords : List (List Nat))
    (existing : List (El t)) (hr : ∀ pos ∈ coords, R (chunkKey path m pos)) (hw : ∀ pos ∈ coords, W (chunkKey path m pos)) :
    OnT R W (Threads.writeLoop env path m bbox fill array coords existing) := by
  induction coords generalizing existing with
  | nil => exact onT_pure _
  | cons pos rest ih =>
    exact (onT_writeCoord (hr pos (by simp)) (hw pos (by simp))).bind fun e => ih e (fun pos hp => hr pos (by simp [hp]))
      fun pos hp => hw pos (by simp [hp])

theorem honest_writeLoop {bbox : BBox} {fill : El t} {array : NdArr (El t)} (coords : List (List Nat))
    (existing : List (El t)) : Honest h (Threads.writeLoop env path m bbox fill array coords existing) := by
  induction coords generalizing existing with
  | nil => exact (sure_pure _).honest
  | cons pos rest ih => exact honest_writeCoord.bind fun e => ih e

theorem onT_writeNdarray {offset : List Nat} {array : NdArr (El t)}
    (hr : ∀ it, m.boundedCoordIter ⟨offset, array.shape⟩ = .ok it → ∀ pos ∈ it.rest, R (chunkKey path m pos))
    (hw : ∀ it, m.boundedCoordIter ⟨offset, array.shape⟩ = .ok it → ∀ pos ∈ it.rest, W (chunkKey path m pos)) :
    OnT R W (Threads.writeNdarray env path m offset array) := by
  refine .ite (onT_lift _) ((onT_lift _).bind fun fill => ?_)
  cases hit : m.boundedCoordIter ⟨offset, array.shape⟩ with
  | ok it => exact onT_writeLoop _ _ (hr it hit) (hw it hit)
  | err e => exact trivial
  | panic => exact trivial

theorem honest_writeNdarray {offset : List Nat} {array : NdArr (El t)} :
    Honest h (Threads.writeNdarray env path m offset array) :=
  .ite (sure_lift _).honest ((sure_lift _).honest.bind fun _ => (sure_lift _).honest.bind fun _ => honest_writeLoop _ _)

end

/-! ## The filesystem is such a store -/

theorem filesystem_run {α : Type} (h : Hier) (P : Wide.Prog α) (fs : Fs) : (filesystem h).run P fs = P.run h fs := by
  induction P generalizing fs with
  | done r => rfl
  | _ => rename_i ih; exact ih _ _

section
variable {h : Hier} {md : List Str → ArrayMetadata} {Q : Str → Prop}

theorem erase_clear {fs : Fs} {key : Str} (hwf : fs.WF) (hpl : Plain (h.loc key)) (hc : Clear h md fs) :
    (storeErase h key fs).2.WF ∧ Clear h md (storeErase h key fs).2 := by
  have sp := storeErase_spec hwf hpl
  refine ⟨(storeErase_frame hwf hpl (Prod.eta _).symm).1, Clear.mono hc fun x => ?_⟩
  rw [sp]
  split
  · simp only [Fs.get_del]
    by_cases e : x = h.loc key
    · rw [if_pos e]; exact .inr (.inl rfl)
    · rw [if_neg e]; exact .inl rfl
  · exact .inl rfl
  · exact .inl rfl

theorem filesystem_keeps (u : Usable h md Q) :
    KeepsValues (filesystem h) (fun fs => fs.WF ∧ Clear h md fs) (fun fs k => fs.content (h.loc k)) (SeenKey h md Q)
      (FileKey h md Q) (fun k => ∃ p, Q p ∧ k = dataPathKey p) (fun p k => segs p <+: segs k) where
  has k fs hk hi := by
    simp only [filesystem, storeExists_eq hi.1 (u.plain hk)]
    exact ⟨trivial, hi, fun _ _ => trivial⟩
  get k fs hk hi := by
    simp only [filesystem, storeGet_eq hi.1 (u.plain hk)]
    exact ⟨trivial, hi, fun _ _ => trivial⟩
  set k b fs hk hi := by
    obtain ⟨fs', e, w, hget⟩ := (storeSet_spec (h := h) (key := k) (b, .ok ()) hi.1 (u.plainFile hk)).1
      (hi.2 _ (u.fileLoc hk))
    simp only [filesystem, e]
    refine ⟨trivial, ⟨w, Clear.set u.sep hi.2 (u.fileLoc hk) hget⟩, fun k' hk' => ?_⟩
    by_cases ek : k' = k
    · rw [if_pos ek, ek]
      exact Fs.content_eq_some.mpr (by rw [hget, setSpec, if_pos rfl])
    · rw [if_neg ek]
      exact (storeSet_frame hi.1 (u.plainFile hk) e).2 _ fun e' => ek (u.inj hk hk' e')
  erase k fs hk hi := by
    have hpl := u.plainFile hk
    have sp := storeErase_spec (h := h) (key := k) hi.1 hpl
    obtain ⟨w, f, _⟩ := storeErase_frame hi.1 hpl (Prod.eta (storeErase h k fs)).symm
    obtain ⟨w', c'⟩ := erase_clear (h := h) (md := md) (key := k) hi.1 hpl hi.2
    have hnd := (hi.2 _ (u.fileLoc hk)).2
    refine ⟨?_, ⟨w', c'⟩, fun k' hk' => ?_⟩
    · simp only [filesystem, sp]
      cases hg : fs.get (h.loc k) with
      | none => rfl
      | some n => cases n with
        | dir => exact absurd hg hnd
        | file b => rfl
    · by_cases ek : k' = k
      · rw [if_pos ek, ek]
        simp only [filesystem, sp]
        cases hg : fs.get (h.loc k) with
        | none => simp [Fs.content, hg]
        | some n => cases n with
          | dir => exact absurd hg hnd
          | file b => simp [Fs.content, Fs.get_del]
      · rw [if_neg ek]
        exact Fs.content_congr ((f _).resolve_right fun e' => ek (u.inj hk hk' e'))
  erasePrefix p fs hp hi := by
    obtain ⟨q, hq, rfl⟩ := hp
    have hplD : Plain (h.loc (dataPathKey q)) := by
      rw [loc_dataKey]; exact plain_dataLoc u.base (u.paths q hq).1.plain
    obtain ⟨fs', e, w, hget⟩ := storeErasePrefix_spec (h := h) (key := dataPathKey q) hi.1 hplD
      (by rw [loc_dataKey]; exact dataLoc_ne_nil h q)
    simp only [filesystem, e]
    refine ⟨⟨true, rfl⟩, ⟨w, Clear.mono hi.2 fun x => ?_⟩, fun k hk => ?_⟩
    · rw [hget]
      split
      · exact .inr (.inl rfl)
      · exact .inl rfl
    · have hpre : h.loc (dataPathKey q) <+: h.loc k ↔ segs (dataPathKey q) <+: segs k :=
        List.prefix_append_right_inj _
      unfold Fs.content
      rw [hget]
      exact ⟨fun e => by rw [if_pos (hpre.mpr e)], fun e => by rw [if_neg fun e' => e (hpre.mp e')]⟩

/-! ## The simulation -/

variable {σ α : Type} {S : Store σ} {inv : σ → Prop} {view : σ → Str → Option Bytes} {under : Str → Str → Prop}

/-- A program gives the same result on a store that keeps values as on a filesystem that holds the same ones. -/
theorem run_same (u : Usable h md Q) {Pre : Str → Prop} (hpre : ∀ k, Pre k → ∃ p, Q p ∧ k = dataPathKey p)
    (hS : KeepsValues S inv view (SeenKey h md Q) (FileKey h md Q) Pre under)
    (hu : ∀ p k, Pre p → SeenKey h md Q k → (under p k ↔ segs p <+: segs k)) (P : Wide.Prog α) :
    ∀ {s : σ} {fs : Fs}, On (SeenKey h md Q) (FileKey h md Q) Pre P → Clean h P fs → inv s → fs.WF → Clear h md fs →
      (∀ k, SeenKey h md Q k → view s k = fs.content (h.loc k)) →
      (S.run P s).1 = (P.run h fs).1 ∧ inv (S.run P s).2 ∧ (P.run h fs).2.WF ∧ Clear h md (P.run h fs).2 ∧
        ∀ k, SeenKey h md Q k → view (S.run P s).2 k = (P.run h fs).2.content (h.loc k) := by
  have hF := filesystem_keeps u
  induction P with
  | done r => intro s fs _ _ hi hw hc hv; exact ⟨rfl, hi, hw, hc, hv⟩
  | «exists» key k ih =>
    intro s fs ho hcl hi hw hc hv
    obtain ⟨a1, a2, a3⟩ := hS.has key s ho.1 hi
    obtain ⟨b1, b2, b3⟩ := hF.has key fs ho.1 ⟨hw, hc⟩
    simp only [filesystem] at b1 b2 b3
    simp only [Store.run, Wide.Prog.run]
    rw [show (S.has key s).1 = (storeExists h key fs).1 by rw [a1, b1, hv _ ho.1]]
    exact ih _ (ho.2 _) hcl a2 b2.1 b2.2 fun k hk => by rw [a3 k hk, b3 k hk, hv k hk]
  | get key k ih =>
    intro s fs ho hcl hi hw hc hv
    obtain ⟨a1, a2, a3⟩ := hS.get key s ho.1 hi
    obtain ⟨b1, b2, b3⟩ := hF.get key fs ho.1 ⟨hw, hc⟩
    simp only [filesystem] at b1 b2 b3
    simp only [Store.run, Wide.Prog.run]
    rw [show (S.get key s).1 = (storeGet h key fs).1 by rw [a1, b1, hv _ ho.1]]
    exact ih _ (ho.2 _) hcl a2 b2.1 b2.2 fun k hk => by rw [a3 k hk, b3 k hk, hv k hk]
  | set key v k ih =>
    intro s fs ho hcl hi hw hc hv
    obtain ⟨b, r⟩ := v
    obtain ⟨rfl, hcl⟩ := hcl
    obtain ⟨a1, a2, a3⟩ := hS.set key b s ho.1 hi
    obtain ⟨b1, b2, b3⟩ := hF.set key b fs ho.1 ⟨hw, hc⟩
    simp only [filesystem] at b1 b2 b3
    simp only [Store.run, Wide.Prog.run]
    rw [show (S.set key (b, .ok ()) s).1 = (storeSet h key (b, .ok ()) fs).1 by rw [a1, b1]]
    exact ih _ (ho.2 _) hcl a2 b2.1 b2.2 fun k hk => by rw [a3 k hk, b3 k hk, hv k hk]
  | erase key k ih =>
    intro s fs ho hcl hi hw hc hv
    obtain ⟨a1, a2, a3⟩ := hS.erase key s ho.1 hi
    obtain ⟨b1, b2, b3⟩ := hF.erase key fs ho.1 ⟨hw, hc⟩
    simp only [filesystem] at b1 b2 b3
    simp only [Store.run, Wide.Prog.run]
    rw [show (S.erase key s).1 = (storeErase h key fs).1 by rw [a1, b1]]
    exact ih _ (ho.2 _) hcl a2 b2.1 b2.2 fun k hk => by rw [a3 k hk, b3 k hk, hv k hk]
  | erasePrefix key k ih =>
    intro s fs ho hcl hi hw hc hv
    obtain ⟨⟨x, a1⟩, a2, a3⟩ := hS.erasePrefix key s ho.1 hi
    obtain ⟨⟨y, b1⟩, b2, b3⟩ := hF.erasePrefix key fs (hpre _ ho.1) ⟨hw, hc⟩
    simp only [filesystem] at b1 b2 b3
    simp only [Store.run, Wide.Prog.run]
    rw [show k (S.erasePrefix key s).1 = k (storeErasePrefix h key fs).1 by rw [a1, b1]; exact ho.2.1 x y]
    refine ih _ (ho.2.2 _) hcl a2 b2.1 b2.2 fun k hk => ?_
    by_cases e : segs key <+: segs k
    · rw [(a3 k hk).1 ((hu _ _ ho.1 hk).mpr e), (b3 k hk).1 e]
    · rw [(a3 k hk).2 (fun e' => e ((hu _ _ ho.1 hk).mp e')), (b3 k hk).2 e, hv k hk]
  | listDir key k ih => intro s fs ho; exact ho.elim

/-! ## The calls -/

variable {env : Env} {fill : List Str → (t : RsType) → El t}

theorem box_lengths {m : ArrayMetadata} {t : RsType} {f : El t} {b : BBox} (ok : BoxOk env m t f b) {it : CoordIter}
    (hit : m.boundedCoordIter b = .ok it) {pos : List Nat} (hp : pos ∈ it.rest) : pos.length = m.shape.length := by
  rw [ok.dims]
  exact bounded_lengths ok.dims (ok.offset.trans ok.shape.symm) hit pos hp

/-- The call uses its keys only. -/
theorem on_call {Pre : Str → Prop} (c : BCall) (hok : c.Ok env h md fill)
    (hq : Q (WCall.call c).path) (hpre : ∀ p, c = .call (.remove p) → Pre (dataPathKey p)) :
    On (SeenKey h md Q) (FileKey h md Q) Pre (Wide.callProg env h md (.call c)) := by
  have wr : ∀ {P : Threads.Prog HResult}, OnT (SeenKey h md Q) (FileKey h md Q) P →
      On (SeenKey h md Q) (FileKey h md Q) Pre ((Wide.Prog.of P).bind fun r => .done (.ok (WResult.plain (.plain r)))) :=
    fun hp => on_bind (on_of hp) fun _ => trivial
  have sa : ∀ {p}, Q p → SeenKey h md Q (arrayMetadataKey h.entry p) := fun hp => .file (.array _ hp)
  have sg : ∀ {p}, Q p → SeenKey h md Q (groupMetadataKey h.entry p) := fun hp => .file (.group _ hp)
  cases c with
  | readBox p t b =>
    exact on_record (on_of (onT_readNdarray fun it hit pos hp => .file (.chunk p pos hq (box_lengths hok.2 hit hp))))
  | writeBox p t o a =>
    exact on_record (on_of (onT_writeNdarray
      (fun it hit pos hp => .file (.chunk p pos hq (box_lengths hok.2.1 hit hp)))
      (fun it hit pos hp => .chunk p pos hq (box_lengths hok.2.1 hit hp))))
  | call c =>
    cases c with
    | remove p =>
      refine on_record (on_bind (p := .erase _ .done) ⟨.group p hq, fun _ => trivial⟩ fun _ =>
        on_bind (p := .erase _ .done) ⟨.array p hq, fun _ => trivial⟩ fun _ => ?_)
      exact ⟨hpre p rfl, fun b b' => rfl, fun r => by cases r <;> trivial⟩
    | createGroup p => exact wr (onT_createGroup (sa hq) (sg hq) (.group p hq)).record
    | createArray p m => exact wr (onT_createArray (sa hq) (sg hq) (.array p hq)).record
    | setAttributes p b => exact wr (onT_setAttributes (sa hq) (sg hq) (.array p hq) (.group p hq)).record
    | nodeExists p => exact wr (onT_nodeExists (sa hq) (sg hq) (.implicit p hq)).record
    | arrayExists p => exact wr (onT_arrayExists (sa hq) (sg hq) (.implicit p hq)).record
    | getArrayMetadata p => exact wr (onT_getArrayMetadata (sa hq)).record
    | listAttributes p => exact wr (onT_listAttributes (sa hq) (sg hq)).record
    | writeChunk p t c => exact wr (OnT.record (onT_set (.chunk p _ hq (inBounds_length hok.2.1.bounds))))
    | deleteChunk p pos => exact wr (OnT.record (onT_erase (.chunk p _ hq (inBounds_length hok.2))))
    | readChunk p t pos => exact wr (onT_readChunk (.file (.chunk p _ hq (inBounds_length hok.2.bounds)))).record

theorem clean_remove (p : Str) (fs : Fs) : Clean h (Wide.remove h p) fs :=
  clean_bind (p := .erase _ .done) trivial fun _ _ => clean_bind (p := .erase _ .done) trivial fun _ _ =>
    clean_bind (p := .erasePrefix _ .done) trivial fun _ _ => trivial

theorem sure_prog {c : HCall} {P : Threads.Prog HResult} (hok : c.Ok env h md) (hP : Threads.HCall.prog env h md c = some P) :
    Sure P := by
  cases c <;> simp only [Threads.HCall.prog, Option.some.injEq, reduceCtorEq] at hP <;> subst hP <;> refine Sure.record ?_
  case createGroup => exact sure_createGroup
  case createArray =>
    obtain ⟨kvs, k1, _, _⟩ := ArrayMetadata.roundTrip hok.2
    exact sure_createArray (by simp [arrayMetadataText, k1])
  case setAttributes => exact sure_setAttributes
  case nodeExists => exact sure_nodeExists
  case arrayExists => exact sure_arrayExists
  case getArrayMetadata => exact sure_getArrayMetadata
  case listAttributes => exact sure_listAttributes
  case writeChunk p t c =>
    obtain ⟨_, ⟨_, d, hd, hk⟩, hlen, hlt, _, htot⟩ := hok
    obtain ⟨sg, _, hwb⟩ := writeChunkBytes_fits (ext := env.codecs) (native := env.native)
      (m := md (segs p)) (c := c) (effective_iff.mpr hd) ((eqModuloEndian_iff_kind _ _ _).mpr hk)
      (by rw [hlen, Nat.mod_eq_of_lt hlt]; rfl)
    exact sure_set (by rw [hwb]; exact htot sg)
  case deleteChunk => exact fun _ => trivial
  case readChunk => exact sure_readChunk

theorem clean_plain (c : HCall) (hok : c.Ok env h md) (fs : Fs) : Clean h (Wide.callProg env h md (.call (.call c))) fs := by
  by_cases hr : ∃ p, c = .remove p
  · obtain ⟨p, rfl⟩ := hr
    simp only [Wide.callProg]
    generalize hP : Wide.remove h p = P
    exact clean_record (hP ▸ clean_remove p fs)
  · obtain ⟨P, hP⟩ : ∃ P, Threads.HCall.prog env h md c = some P := by
      cases c <;> first | exact ⟨_, rfl⟩ | exact absurd ⟨_, rfl⟩ hr
    have e : Wide.callProg env h md (.call (.call c)) =
        (Wide.Prog.of P).bind fun r => .done (.ok (.plain (.plain r))) := by
      cases c <;> first | exact absurd ⟨_, rfl⟩ hr | (simp only [Wide.callProg, hP])
    rw [e]
    exact clean_bind (clean_of (sure_prog hok hP) fs) fun _ _ => trivial

/-- No closure fails. -/
theorem clean_call (u : Usable h md Q) (hj : env.json.Lawful) {a : AbsHier} {fs : Fs} (hh : Holds env h md a fs) (c : BCall)
    (hok : c.Ok env h md fill) : Clean h (Wide.callProg env h md (.call c)) fs := by
  cases c with
  | readBox p t b => exact clean_record (clean_of sure_readNdarray fs)
  | writeBox p t o a =>
    refine clean_record (honest_writeNdarray fs () ?_)
    rw [Threads.run_writeNdarray]
    have := (bStep hj u.base u.suffix u.dot u.sep hh _ hok).1
    simp only [BCall.run, BCall.abs, BResult.plain.injEq, HResult.unit.injEq] at this
    exact this
  | call c => exact clean_plain c hok fs

end

end Zarr.Any
