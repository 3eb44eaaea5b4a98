import Verif.Lemmas.Turns
import Verif.Lemmas.Clear
import Verif.Props.ThreadCalls
/-!
# Two threads that create an array and a group at one path: the failing case of C77
-/

namespace Zarr.Threads

open Spec

variable {env : Env} {h : Hier} {path : Str} {fs : Fs}

theorem docLoc_length (h : Hier) (path : Str) : (docLoc h str!"array" path).length = (docLoc h str!"group" path).length := by
  simp [docLoc, appendName]

/-- The two documents of a path can be written independently. -/
theorem writable_other {key key' : Str} {v : Bytes × Outcome Unit} {fs' : Fs} {r : Outcome Unit} (hwf : fs.WF)
    (hk : Plain (h.loc key)) (hlen : (h.loc key).length = (h.loc key').length) (hne : h.loc key ≠ h.loc key')
    (hw : Writable fs (h.loc key')) (hset : storeSet h key v fs = (r, fs')) : Writable fs' (h.loc key') := by
  obtain ⟨s1, s2⟩ := storeSet_spec (h := h) (key := key) v hwf hk
  by_cases hx : Writable fs (h.loc key)
  · obtain ⟨fs1, h1, _, h3⟩ := s1 hx
    rw [h1] at hset
    obtain rfl := (Prod.mk.inj hset).2
    have hno : ∀ l, l <+: h.loc key' → l ≠ h.loc key := by
      rintro l hl rfl
      exact hne (hl.eq_of_length hlen)
    constructor
    · intro l hl hl' b
      rw [h3 l, setSpec, if_neg (hno l hl)]
      split
      · simp
      · exact hw.1 l hl hl' b
    · rw [h3, setSpec, if_neg (fun e => hne e.symm)]
      split
      · rename_i hc
        exact absurd (hc.1.eq_of_length hlen.symm).symm hne
      · exact hw.2
  · obtain ⟨e, he⟩ := s2 hx
    rw [he] at hset
    obtain rfl := (Prod.mk.inj hset).2
    exact hw

/-- **C77 (violated), in general.** At any path where there is no node, if `create_group` and `create_array` would both
succeed alone, then two threads that make these calls at the same time can both succeed. The path is then both an
array and a group, with both documents complete. One after the other, in either order, the second call returns an
error. -/
theorem C77_violated_always (env : Env) (h : Hier) (md : List Str → ArrayMetadata) (path : Str) (m : ArrayMetadata)
    (fs : Fs) (hwf : fs.WF) (hb : Plain (segs h.base)) (hsfx : GoodSuffix h.entry) (hp : Plain (segs path))
    (hna : arrayDoc h fs path = none) (hng : groupDoc h fs path = none)
    (hg : (Zarr.createGroup env h path fs).1 = .ok ()) (ha : (Zarr.createArray env h path m fs).1 = .ok ()) :
    ∃ (ps : List (Prog (List HResult))) (ts : List Nat) (s : Sys (List HResult)),
      [[.createGroup path], [.createArray path m]].map (threadProg env h md) = ps.map some ∧
      (Sys.initial fs ps).run h ts = some s ∧
      s.result 0 = some (.ok [.unit (.ok ())]) ∧ s.result 1 = some (.ok [.unit (.ok ())]) ∧
      arrayDoc h s.fs path = some (arrayMetadataText env m).1 ∧
      groupDoc h s.fs path = some (env.json.print GroupMetadata.default.toJson) ∧
      (Zarr.createArray env h path m (Zarr.createGroup env h path fs).2).1 = .err .alreadyExists ∧
      (Zarr.createGroup env h path (Zarr.createArray env h path m fs).2).1 = .err .alreadyExists := by
  have la := loc_arrayKey (h := h) hsfx hp
  have lg := loc_groupKey (h := h) hsfx hp
  have pa : Plain (h.loc (arrayMetadataKey h.entry path)) := by rw [la]; exact plain_docLoc hb hp (by simp)
  have pg : Plain (h.loc (groupMetadataKey h.entry path)) := by rw [lg]; exact plain_docLoc hb hp (by simp)
  have hne : h.loc (arrayMetadataKey h.entry path) ≠ h.loc (groupMetadataKey h.entry path) := by
    rw [la, lg]; exact docLoc_array_ne_group
  have hlen : (h.loc (arrayMetadataKey h.entry path)).length = (h.loc (groupMetadataKey h.entry path)).length := by
    rw [la, lg]; exact docLoc_length h path
  have eg := createGroup_eq (env := env) hwf hb hsfx hp
  have ea := createArray_eq (env := env) (m := m) hwf hb hsfx hp
  simp only [hna, hng, Option.isSome_none, Bool.false_eq_true, if_false] at eg ea
  rw [eg] at hg ⊢
  rw [ea] at ha ⊢
  obtain ⟨fsg, hsg⟩ : ∃ x, storeSet h (groupMetadataKey h.entry path) (env.json.print GroupMetadata.default.toJson, .ok ())
    fs = (.ok (), x) := ⟨_, Prod.ext hg rfl⟩
  obtain ⟨fsa, hsa⟩ : ∃ x, storeSet h (arrayMetadataKey h.entry path) (arrayMetadataText env m) fs = (.ok (), x) :=
    ⟨_, Prod.ext ha rfl⟩
  obtain ⟨g1, _, g3, g4⟩ := storeSet_ok hwf pg hsg
  obtain ⟨a1, a2, a3, a4⟩ := storeSet_ok hwf pa hsa
  rw [hsg, hsa]
  -- the group call finds no node, then the array call is made, then the group call goes on
  let K : Outcome Unit → Prog (List HResult) := fun r => .done (.ok [.unit r])
  have hlead : Leads h (.prog ((createGroup env h path).record .unit >>= fun r =>
        (pure [] : Prog (List HResult)) >>= fun rs => pure (r :: rs))) fs
      (.prog (.set (groupMetadataKey h.entry path) (env.json.print GroupMetadata.default.toJson, .ok ()) K)) fs := by
    refine Leads.trans (leads_exists (arrayMetadataKey h.entry path) _) ?_
    rw [storeExists_eq hwf pa, la]
    show Leads h (.prog (Prog.bind (Prog.record _ (Prog.bind (.done (.ok (arrayDoc h fs path).isSome)) _)) _)) fs _ fs
    rw [hna]
    refine Leads.trans (leads_exists (groupMetadataKey h.entry path) _) ?_
    rw [storeExists_eq hwf pg, lg]
    show Leads h (.prog (Prog.bind (Prog.record _ (Prog.bind (.done (.ok (groupDoc h fs path).isSome)) _)) _)) fs _ fs
    rw [hng]
    exact Leads.refl _ _
  have hB : ((createArray env h path m).record .unit >>= fun r =>
        (pure [] : Prog (List HResult)) >>= fun rs => pure (r :: rs)).run h fs = (.ok [.unit (.ok ())], fsa) := by
    simp only [Prog.run_bind, M.bind_apply, Prog.run_record, run_createArray, ea, hsa]
    rfl
  obtain ⟨ts, s, r1, r2, r3, r4⟩ := overtaken (B := (createArray env h path m).record .unit >>= fun r =>
        (pure [] : Prog (List HResult)) >>= fun rs => pure (r :: rs)) hlead
  rw [hB] at r2 r3 r4
  obtain ⟨fs2, u1, u2, u3⟩ := (storeSet_spec (h := h) (key := groupMetadataKey h.entry path)
    (env.json.print GroupMetadata.default.toJson, .ok ()) a3 pg).1 (writable_other hwf pa hlen hne g1 hsa)
  simp only [Prog.run, u1, K, M.lift_apply] at r2 r3 r4
  refine ⟨[_, _], ts, s, rfl, r1, r3, r4, ?_, ?_, ?_, ?_⟩
  · rw [r2, arrayDoc, ← la, (storeSet_frame a3 pg u1).2 _ hne]
    exact Fs.content_eq_some.mpr (by rw [a4, setSpec, if_pos rfl])
  · rw [r2, groupDoc, ← lg]
    exact Fs.content_eq_some.mpr (by rw [u3, setSpec, if_pos rfl])
  · rw [createArray_eq g3 hb hsfx hp, if_pos]
    rw [groupDoc, ← lg, Fs.content_eq_some.mpr (by rw [g4, setSpec, if_pos rfl])]
    rfl
  · rw [createGroup_eq a3 hb hsfx hp, if_pos]
    rw [arrayDoc, ← la, Fs.content_eq_some.mpr (by rw [a4, setSpec, if_pos rfl])]
    rfl

/-- Two threads create an array and a group at `/a` of an empty hierarchy. -/
example : ∃ (ps : List (Prog (List HResult))) (ts : List Nat) (s : Sys (List HResult)),
    [[.createGroup str!"/a"], [.createArray str!"/a" Demo.arr]].map (threadProg Demo.envJ Demo.hier fun _ => Demo.arr) =
      ps.map some ∧
    (Sys.initial Demo.emptyFs ps).run Demo.hier ts = some s ∧
    s.result 0 = some (.ok [.unit (.ok ())]) ∧ s.result 1 = some (.ok [.unit (.ok ())]) ∧
    (arrayDoc Demo.hier s.fs str!"/a").isSome ∧ (groupDoc Demo.hier s.fs str!"/a").isSome := by
  obtain ⟨ps, ts, s, h1, h2, h3, h4, h5, h6, _⟩ := C77_violated_always Demo.envJ Demo.hier (fun _ => Demo.arr) str!"/a"
    Demo.arr Demo.emptyFs Demo.emptyFs_wf (by decide) (by unfold GoodSuffix; decide) (by decide) (by decide +kernel)
    (by decide +kernel) (by decide +kernel) (by decide +kernel)
  exact ⟨ps, ts, s, h1, h2, h3, h4, by rw [h5]; rfl, by rw [h6]; rfl⟩

end Zarr.Threads
