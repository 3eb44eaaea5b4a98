import Verif.Props.WalkFaults
import Verif.Props.FaultsAlways
/-!
# Failing system calls that go unnoticed in `remove` and `list_nodes`, at every node: C87
-/

namespace Zarr.Wide

open Spec

variable {α : Type} {h : Hier}

theorem unseen_erase {key : Str} (k : Outcome Bool → Prog α) (f f' : Threads.Fault) (s : List (Option Threads.Fault))
    (hp : Plain (h.loc key)) (fs : Fs) :
    (Pc.prog (.erase key k)).runFaulty h fs (some f :: some f' :: s) = (Pc.prog (k (.ok true))).runFaulty h fs s := by
  obtain ⟨t, ht, _⟩ := getPath_loc hp
  simp [Pc.runFaulty, Pc.stepFaulty, Pc.failed, Threads.Pc.failed, ht, Pc.ofBase]

theorem unseen_erasePrefix {key : Str} (k : Outcome Bool → Prog α) (f f' : Threads.Fault)
    (s : List (Option Threads.Fault)) (hp : Plain (h.loc key)) (fs : Fs) :
    (Pc.prog (.erasePrefix key k)).runFaulty h fs (some f :: some f' :: s) =
      (Pc.prog (k (.ok true))).runFaulty h fs s := by
  obtain ⟨t, ht, _⟩ := getPath_loc hp
  simp [Pc.runFaulty, Pc.stepFaulty, Pc.failed, ht]

theorem unseen_listing {pre : Str} {p : List Str} {names keys prefixes : List Str}
    (k : Outcome (List Str × List Str) → Prog α) (fs : Fs) (faults : List Threads.Fault)
    (hl : faults.length = names.length) (s : List (Option Threads.Fault)) :
    (Pc.listing pre p names keys prefixes k).runFaulty h fs (faults.map some ++ none :: s) =
      (Pc.prog (k (.ok (keys, prefixes)))).runFaulty h fs s := by
  induction names generalizing faults with
  | nil =>
    cases faults with
    | nil => simp [Pc.runFaulty, Pc.stepFaulty, Pc.next]
    | cons => simp at hl
  | cons n ns ih =>
    cases faults with
    | nil => simp at hl
    | cons f fs' =>
      simp only [List.length_cons, Nat.add_right_cancel_iff] at hl
      simp only [List.map_cons, List.cons_append, Pc.runFaulty, Pc.stepFaulty, Pc.failed, Option.bind_some]
      exact ih fs' hl

/-- **C87 (violated), `remove` in general.** Whatever there is at a path: if the checks of `remove` whether the
documents and the directory of the chunks exist fail, it returns `Ok`, and nothing has been removed. -/
theorem C87_violated_remove_always (h : Hier) (path : Str) (fs : Fs) (hb : Plain (segs h.base)) (hp : Plain (segs path))
    (hsfx : GoodSuffix h.entry) (f1 f2 f3 f4 f5 f6 : Threads.Fault) :
    (Pc.prog (remove h path)).runFaulty h fs [some f1, some f2, some f3, some f4, some f5, some f6] =
      some (.prog (.done (.ok ())), fs) := by
  have h1 : Plain (h.loc (groupMetadataKey h.entry path)) := by
    rw [loc_groupKey hsfx hp]; exact plain_docLoc hb hp (by simp)
  have h2 : Plain (h.loc (arrayMetadataKey h.entry path)) := by
    rw [loc_arrayKey hsfx hp]; exact plain_docLoc hb hp (by simp)
  have h3 : Plain (h.loc (dataPathKey path)) := by rw [loc_dataKey]; exact plain_dataLoc hb hp
  show (Pc.prog (.erase (groupMetadataKey h.entry path) _)).runFaulty h fs _ = _
  rw [unseen_erase _ _ _ _ h1]
  show (Pc.prog (.erase (arrayMetadataKey h.entry path) _)).runFaulty h fs _ = _
  rw [unseen_erase _ _ _ _ h2]
  show (Pc.prog (.erasePrefix (dataPathKey path) _)).runFaulty h fs _ = _
  rw [unseen_erasePrefix _ _ _ _ h3]
  rfl

/-- **C87 (violated), `list_nodes` in general.** Whatever nodes there are in a directory: if looking at its entries
fails, with any errors, `list_nodes` returns `Ok` of no nodes. -/
theorem C87_violated_listing_always (env : Env) (h : Hier) (path : Str) (fs : Fs) (hwf : fs.WF)
    (hb : Plain (segs h.base)) (hp : Plain (segs path)) (hd : fs.get (implicitLoc h path) = some .dir)
    (faults : List Threads.Fault) (hl : faults.length = (fs.children (implicitLoc h path)).length) :
    (Pc.prog (listNodes env h path)).runFaulty h fs (none :: (faults.map some ++ [none])) =
      some (.prog (.done (.ok [])), fs) := by
  have e : h.loc (metaRoot ++ '/' :: canonicalizePath path) = implicitLoc h path := by
    rw [Hier.loc, segs_append_sep, segs_canonicalizePath]; rfl
  have hpl := plain_listKey hb hp (h := h) (p := path)
  obtain ⟨t, ht, hs⟩ := getPath_loc hpl
  have hloc : fs.locate (segs t) = .ok (implicitLoc h path) := by
    rw [hs, e]
    exact Fs.locate_of_get hwf (e ▸ hpl) hd
  show (Pc.prog (.listDir (metaRoot ++ '/' :: canonicalizePath path) _)).runFaulty h fs _ = _
  simp only [Pc.runFaulty, Pc.stepFaulty, Pc.next, ht, hloc, hd, Option.bind_some]
  rw [unseen_listing _ _ _ (by simpa using hl)]
  rfl

/-- An array with a chunk: `remove` says it is gone, and it is there; without failures it is removed. -/
example (f : Threads.Fault) :
    (Pc.prog (remove Demo.hier Demo.path)).runFaulty Demo.hier Wide.demoFs (List.replicate 6 (some f)) =
      some (.prog (.done (.ok ())), Wide.demoFs) ∧
    (Zarr.nodeExists Demo.hier Demo.path Wide.demoFs).1 = .ok true ∧
    (Zarr.nodeExists Demo.hier Demo.path (Zarr.remove Demo.hier Demo.path Wide.demoFs).2).1 = .ok false :=
  ⟨C87_violated_remove_always Demo.hier Demo.path Wide.demoFs (by decide) (by decide) (by unfold GoodSuffix; decide)
    f f f f f f, by decide +kernel, by decide +kernel⟩

/-- A group with a node in it: `list_nodes` says there is none. -/
example (f : Threads.Fault) :
    (Pc.prog (listNodes Demo.envJ Demo.hier str!"/b")).runFaulty Demo.hier Wide.demoFs [none, some f, none] =
      some (.prog (.done (.ok [])), Wide.demoFs) ∧
    (Zarr.listNodes Demo.envJ Demo.hier str!"/b" Wide.demoFs).1 = .ok [str!"a"] :=
  ⟨C87_violated_listing_always Demo.envJ Demo.hier str!"/b" Wide.demoFs Wide.demoFs_wf.1 (by decide) (by decide)
    (by decide +kernel) [f] (by show 1 = _; decide +kernel), by decide +kernel⟩

end Zarr.Wide
