import Verif.Lemmas.SoloWalk
import Verif.Props.CrashRuns
/-!
# Crash states of `remove` and its runs

Every state that a thread which removes a node goes through is one of those that `RemoveState` allows. -/

namespace Zarr

/-! ## Entries removed one by one -/

/-- Some entries below `l` were removed, each when it was a file or an empty directory. -/
def RmPath (l : Loc) (fs s : Fs) : Prop := ∃ L : List Loc, (∀ x ∈ L, l <+: x) ∧ Fs.rmEntries L fs = (.ok (), s)

theorem RmPath.refl (l : Loc) (fs : Fs) : RmPath l fs fs := ⟨[], by simp, rfl⟩

theorem RmPath.step {l x : Loc} {fs s s' : Fs} (h : RmPath l fs s) (hx : l <+: x) (hr : s.rmEntry x = .ok s') :
    RmPath l fs s' := by
  obtain ⟨L, h1, h2⟩ := h
  refine ⟨L ++ [x], ?_, ?_⟩
  · intro y hy
    rcases List.mem_append.mp hy with h | h
    · exact h1 y h
    · rw [List.mem_singleton.mp h]; exact hx
  · rw [rmEntries_append, h2]
    simp only [Fs.rmEntries, hr]

theorem rmEntry_ok {fs s : Fs} (hwf : fs.WF) {x : Loc} (hx : x ≠ []) (hr : fs.rmEntry x = .ok s) :
    s = fs.del x ∧ fs.get x ≠ none ∧ (∀ a, fs.get (x ++ [a]) = none) ∧ s.WF := by
  have key : s = fs.del x ∧ fs.get x ≠ none ∧ ∀ a, fs.get (x ++ [a]) = none := by
    unfold Fs.rmEntry at hr
    cases hg : fs.get x with
    | none => rw [hg] at hr; cases hr
    | some n =>
      rw [hg] at hr
      cases n with
      | file b =>
        cases hr
        exact ⟨rfl, by simp, fun a => hwf.none_below_file (List.prefix_append _ _) (by simp) hg⟩
      | dir =>
        simp only at hr
        split at hr
        · rename_i hc
          cases hr
          refine ⟨rfl, by simp, fun a => ?_⟩
          cases hga : fs.get (x ++ [a]) with
          | none => rfl
          | some n =>
            have := (Fs.mem_children hwf (s := a) (n := n)).mpr hga
            rw [List.isEmpty_iff.mp hc] at this
            cases this
        · cases hr
  refine ⟨key.1, key.2.1, key.2.2, ?_⟩
  rw [key.1]
  exact hwf.del_empty hx key.2.2

/-- Entries removed one by one can be the first of all entries, contents first. -/
theorem RmPath.contentsFirst {l : Loc} (hl : l ≠ []) {s : Fs} : ∀ (L : List Loc) (fs : Fs), fs.WF → (∀ x ∈ L, l <+: x) →
    Fs.rmEntries L fs = (.ok (), s) → ∃ es, ContentsFirst fs l (L ++ es) := by
  intro L
  induction L with
  | nil =>
    intro fs hwf _ _
    obtain ⟨es, hes⟩ := contentsFirst_exists hwf l
    exact ⟨es, hes⟩
  | cons x L ih =>
    intro fs hwf hL hr
    have hlx := hL x (by simp)
    have hx0 : x ≠ [] := by rintro rfl; exact hl (List.prefix_nil.mp hlx)
    simp only [Fs.rmEntries] at hr
    cases hm : fs.rmEntry x with
    | err e => rw [hm] at hr; cases hr
    | panic => rw [hm] at hr; cases hr
    | ok fs1 =>
      rw [hm] at hr
      obtain ⟨e1, e2, e3, e4⟩ := rmEntry_ok hwf hx0 hm
      obtain ⟨es, hes⟩ := ih fs1 e4 (fun y hy => hL y (by simp [hy])) hr
      have hget : ∀ y, fs1.get y = if y = x then none else fs.get y := by
        intro y; rw [e1, Fs.get_del]
      refine ⟨es, ?_, ?_, ?_⟩
      · rw [List.cons_append, List.nodup_cons]
        refine ⟨fun hin => ?_, hes.nodup⟩
        have := ((hes.mem x).mp hin).2
        rw [hget, if_pos rfl] at this
        exact this rfl
      · intro y
        rw [List.cons_append, List.mem_cons, hes.mem, hget]
        by_cases hy : y = x
        · subst hy; simp [hlx, e2]
        · simp [hy]
      · intro pre y post he z hz hyz hne
        cases pre with
        | nil =>
          simp only [List.cons_append, List.nil_append, List.cons.injEq] at he
          obtain ⟨rfl, _⟩ := he
          exfalso
          -- nothing is below `x`
          rw [List.cons_append, List.mem_cons] at hz
          rcases hz with hz | hz
          · exact hne hz
          · have hz2 := ((hes.mem z).mp hz).2
            rw [hget, if_neg hne] at hz2
            obtain ⟨t, ht⟩ := hyz
            cases t with
            | nil => exact hne (by rw [← ht]; simp)
            | cons a t =>
              cases hgz : fs.get z with
              | none => exact hz2 hgz
              | some n =>
                have hpre : x ++ [a] <+: z := ⟨t, by rw [← ht]; simp⟩
                by_cases hxa : x ++ [a] = z
                · rw [← hxa, e3] at hgz; cases hgz
                · have := hwf.dir_of_prefix hpre hxa hgz
                  rw [e3] at this; cases this
        | cons p pre =>
          simp only [List.cons_append, List.cons.injEq] at he
          obtain ⟨rfl, he⟩ := he
          by_cases hzx : z = x
          · rw [hzx]; simp
          · rw [List.cons_append, List.mem_cons] at hz
            rcases hz with hz | hz
            · exact absurd hz hzx
            · exact List.mem_cons_of_mem _ (hes.after pre y post he z hz hyz hne)

theorem RmPath.state {h : Hier} {key : Str} {fs s : Fs} (hwf : fs.WF) (hp : Plain (h.loc key)) (hne : h.loc key ≠ [])
    {n : Node} (hg : fs.get (h.loc key) = some n) (hr : RmPath (h.loc key) fs s) : ErasePrefixState h key fs s := by
  obtain ⟨L, h1, h2⟩ := hr
  obtain ⟨es, hes⟩ := RmPath.contentsFirst hne L fs hwf h1 h2
  obtain ⟨t, ht, hs⟩ := getPath_loc hp
  refine .inr ⟨t, h.loc key, L ++ es, L.length, ht, ?_, hes, ?_⟩
  · rw [hs]; exact Fs.locate_of_get hwf hp hg
  · rw [List.take_left, h2]

namespace Wide

/-! ## The walk -/

/-- The item concerns an entry below `l`. -/
def Item.Below (l : Loc) : Item → Prop
  | .stat q | .open q | .file q | .rmdir q => l <+: q ∧ Plain q

/-- A thread in `erase_prefix` of `l`, or after it. -/
def InWalk {α : Type} (l : Loc) (k : Outcome Bool → Prog α) : Pc α → Prop
  | .walk _ items k' => (∀ i ∈ items, i.Below l) ∧ k' = k
  | .walkLock _ q _ items k' => (l <+: q ∧ Plain q) ∧ (∀ i ∈ items, i.Below l) ∧ k' = k
  | .walkUnlink _ q _ items k' => (l <+: q ∧ Plain q) ∧ (∀ i ∈ items, i.Below l) ∧ k' = k
  | .prog P => ∃ r, P = k r
  | _ => False

theorem inWalk_leads {α : Type} {h : Hier} {l : Loc} (hl : l ≠ []) {k : Outcome Bool → Prog α} (hk : ∀ r, ∃ r', k r = .done r')
    {pc pc' : Pc α} {fs s s' : Fs} (hL : Leads h pc s pc' s') : s.WF → s.Named → InWalk l k pc → RmPath l fs s → RmPath l fs s' := by
  induction hL with
  | refl => exact fun _ _ _ hr => hr
  | @step pc pc1 pc2 s s1 s2 hn _ ih =>
    intro hwf hnm hin hr
    have hne : ∀ {q}, l <+: q → q ≠ [] := fun hq e => hl (List.prefix_nil.mp (e ▸ hq))
    cases pc with
    | base _ => exact hin.elim
    | listing _ _ _ _ _ _ => exact hin.elim
    | prog P =>
      obtain ⟨r, rfl⟩ := hin
      obtain ⟨r', hr'⟩ := hk r
      rw [hr'] at hn
      simp [Pc.next] at hn
    | walkLock p q x items k' =>
      obtain ⟨h1, h2, h3⟩ := hin
      simp only [Pc.next, List.filterMap_nil, List.any_nil, Bool.false_eq_true, if_false, Option.some.injEq, Prod.mk.injEq] at hn
      obtain ⟨rfl, rfl⟩ := hn
      exact ih hwf hnm ⟨h1, h2, h3⟩ hr
    | walkUnlink p q x items k' =>
      obtain ⟨h1, h2, rfl⟩ := hin
      simp only [Pc.next] at hn
      cases hlo : s.locate q with
      | err e => rw [hlo] at hn; cases hn; exact ih hwf hnm ⟨_, rfl⟩ hr
      | panic => rw [hlo] at hn; cases hn; exact ih hwf hnm ⟨_, rfl⟩ hr
      | ok y =>
        have hy := Fs.locate_plain_ok h1.2 hlo
        subst hy
        rw [hlo] at hn
        simp only at hn
        cases hg : s.get y with
        | none => rw [hg] at hn; cases hn; exact ih hwf hnm ⟨_, rfl⟩ hr
        | some n =>
          rw [hg] at hn
          cases n with
          | dir => cases hn; exact ih hwf hnm ⟨_, rfl⟩ hr
          | file b =>
            cases hn
            have hrm : s.rmEntry y = .ok (s.del y) := by simp [Fs.rmEntry, hg]
            exact ih (rmEntry_ok hwf (hne h1.1) hrm).2.2.2 (hnm.del y) ⟨h2, rfl⟩ (hr.step h1.1 hrm)
    | walk p items k' =>
      obtain ⟨h1, rfl⟩ := hin
      cases items with
      | nil =>
        simp only [Pc.next, Option.some.injEq, Prod.mk.injEq] at hn
        obtain ⟨rfl, rfl⟩ := hn
        exact ih hwf hnm ⟨_, rfl⟩ hr
      | cons i items =>
        have hb := h1 i (by simp)
        have hrest : ∀ j ∈ items, j.Below l := fun j hj => h1 j (by simp [hj])
        cases i with
        | stat q =>
          simp only [Pc.next] at hn
          cases hlo : s.locate q with
          | err e => rw [hlo] at hn; cases hn; exact ih hwf hnm ⟨_, rfl⟩ hr
          | panic => rw [hlo] at hn; cases hn; exact ih hwf hnm ⟨_, rfl⟩ hr
          | ok y =>
            rw [hlo] at hn
            simp only at hn
            cases hg : s.get y with
            | none => rw [hg] at hn; cases hn; exact ih hwf hnm ⟨_, rfl⟩ hr
            | some n =>
              rw [hg] at hn
              cases n <;> cases hn <;>
              · refine ih hwf hnm ⟨?_, rfl⟩ hr
                intro j hj
                rcases List.mem_cons.mp hj with rfl | hj
                · exact hb
                · exact hrest j hj
        | «open» q =>
          simp only [Pc.next] at hn
          cases hlo : s.locate q with
          | err e => rw [hlo] at hn; cases hn; exact ih hwf hnm ⟨_, rfl⟩ hr
          | panic => rw [hlo] at hn; cases hn; exact ih hwf hnm ⟨_, rfl⟩ hr
          | ok y =>
            have hy := Fs.locate_plain_ok hb.2 hlo
            subst hy
            rw [hlo] at hn
            simp only at hn
            cases hg : s.get y with
            | none => rw [hg] at hn; cases hn; exact ih hwf hnm ⟨_, rfl⟩ hr
            | some n =>
              rw [hg] at hn
              cases n with
              | file b => cases hn; exact ih hwf hnm ⟨_, rfl⟩ hr
              | dir =>
                cases hn
                refine ih hwf hnm ⟨?_, rfl⟩ hr
                intro j hj
                rcases List.mem_append.mp hj with hj | hj
                · obtain ⟨e, he, rfl⟩ := List.mem_map.mp hj
                  have hge := (Fs.mem_children hwf (s := e.1) (n := e.2)).mp he
                  have : l <+: y ++ [e.1] ∧ Plain (y ++ [e.1]) :=
                    ⟨hb.1.trans (List.prefix_append _ _), hnm _ _ hge⟩
                  split <;> exact this
                · rcases List.mem_cons.mp hj with rfl | hj
                  · exact hb
                  · exact hrest j hj
        | file q =>
          simp only [Pc.next] at hn
          cases hlo : s.locate q with
          | err e => rw [hlo] at hn; cases hn; exact ih hwf hnm ⟨_, rfl⟩ hr
          | panic => rw [hlo] at hn; cases hn; exact ih hwf hnm ⟨_, rfl⟩ hr
          | ok y =>
            rw [hlo] at hn
            simp only [Option.some.injEq, Prod.mk.injEq] at hn
            obtain ⟨rfl, rfl⟩ := hn
            refine ih hwf hnm ?_ hr
            split
            · exact ⟨hb, hrest, rfl⟩
            · exact ⟨_, rfl⟩
        | rmdir q =>
          simp only [Pc.next, Fs.rmdir] at hn
          cases hlo : s.locate q with
          | err e => rw [hlo] at hn; cases hn; exact ih hwf hnm ⟨_, rfl⟩ hr
          | panic => rw [hlo] at hn; cases hn; exact ih hwf hnm ⟨_, rfl⟩ hr
          | ok y =>
            have hy := Fs.locate_plain_ok hb.2 hlo
            subst hy
            rw [hlo] at hn
            simp only at hn
            cases hg : s.get y with
            | none => rw [hg] at hn; cases hn; exact ih hwf hnm ⟨_, rfl⟩ hr
            | some n =>
              rw [hg] at hn
              cases n with
              | file b => cases hn; exact ih hwf hnm ⟨_, rfl⟩ hr
              | dir =>
                simp only at hn
                by_cases hc : y = [] ∨ s.children y ≠ []
                · rw [if_pos hc] at hn; cases hn; exact ih hwf hnm ⟨_, rfl⟩ hr
                · rw [if_neg hc] at hn
                  cases hn
                  have hce : s.children y = [] := Decidable.not_not.mp fun h => hc (.inr h)
                  have hrm : s.rmEntry y = .ok (s.del y) := by simp [Fs.rmEntry, hg, hce]
                  exact ih (rmEntry_ok hwf (hne hb.1) hrm).2.2.2 (hnm.del y) ⟨hrest, rfl⟩ (hr.step hb.1 hrm)

theorem leads_erasePrefix_state {α : Type} {h : Hier} {fs s : Fs} {key : Str} {k : Outcome Bool → Prog α} {pc' : Pc α}
    (hk : ∀ r, ∃ r', k r = .done r') (hwf : fs.WF) (hnm : fs.Named) (hp : Plain (h.loc key)) (hne : h.loc key ≠ [])
    (hL : Leads h (.prog (.erasePrefix key k)) fs pc' s) : ErasePrefixState h key fs s := by
  obtain ⟨t, ht, hs⟩ := getPath_loc hp
  cases hL with
  | refl => exact .inl rfl
  | step hn hL =>
    simp only [Pc.next, ht, hs, Option.some.injEq, Prod.mk.injEq] at hn
    obtain ⟨rfl, rfl⟩ := hn
    cases hg : fs.get (h.loc key) with
    | none =>
      have hpe : fs.pathExists (h.loc key) = false := by simp [Fs.pathExists, Fs.node_plain hwf hp, hg]
      rw [hpe] at hL
      simp only [Bool.false_eq_true, if_false] at hL
      cases hL with
      | refl => exact .inl rfl
      | step hn hL =>
        simp only [Pc.next, Option.some.injEq, Prod.mk.injEq] at hn
        obtain ⟨rfl, rfl⟩ := hn
        obtain ⟨r', hr'⟩ := hk (.ok (!fs.pathExists (h.loc key)))
        rw [hr'] at hL
        cases hL with
        | refl => exact .inl rfl
        | step hn _ => simp [Pc.next] at hn
    | some n =>
      have hpe : fs.pathExists (h.loc key) = true := by simp [Fs.pathExists, Fs.node_plain hwf hp, hg]
      rw [hpe] at hL
      simp only [if_true] at hL
      refine RmPath.state hwf hp hne hg ?_
      refine inWalk_leads hne hk hL hwf hnm ⟨?_, rfl⟩ (.refl _ _)
      intro i hi
      rw [List.mem_singleton.mp hi]
      exact ⟨List.prefix_refl _, hp⟩

/-! ## `erase` -/

/-- The steps inside a call of the other model. -/
theorem leads_split {α : Type} {h : Hier} {fs s : Fs} {pc : Threads.Pc (Prog α)} {w pc' : Pc α}
    (hL : Leads h w fs pc' s) : w = .ofBase pc → Threads.Left h pc fs s ∨
      ∃ P fs1, Threads.Leads h pc fs (.prog (.done (.ok P))) fs1 ∧ Leads h (.prog P) fs1 pc' s := by
  induction hL generalizing pc with
  | refl => exact fun _ => .inl Threads.left_self
  | @step w w1 w2 fs fs1 fs2 hn hr ih =>
    rintro rfl
    by_cases hd : ∃ P, pc = .prog (.done (.ok P))
    · obtain ⟨P, rfl⟩ := hd
      exact .inr ⟨P, fs, .refl .., .step hn hr⟩
    · have hb : Pc.ofBase pc = .base pc := by
        unfold Pc.ofBase
        split
        · exact absurd ⟨_, rfl⟩ hd
        · rfl
      rw [hb] at hn
      simp only [Pc.next, baseNext, List.filterMap_nil, Option.map_eq_some_iff] at hn
      obtain ⟨⟨q, f⟩, h1, h2⟩ := hn
      simp only [Prod.mk.injEq] at h2
      obtain ⟨rfl, rfl⟩ := h2
      rcases ih rfl with hl | ⟨P, f1, hl, hl'⟩
      · exact .inl ((Threads.left_step h1).mpr (.inr hl))
      · exact .inr ⟨P, f1, .step h1 hl, hl'⟩

theorem finish_unique_base {α : Type} {h : Hier} {pc : Threads.Pc α} {fs fs1 fs2 : Fs} {r r' : Outcome α}
    (h1 : Threads.Leads h pc fs (.prog (.done r)) fs1) (h2 : Threads.Leads h pc fs (.prog (.done r')) fs2) :
    r = r' ∧ fs1 = fs2 := by
  generalize he : (Threads.Pc.prog (.done r) : Threads.Pc α) = q at h1
  induction h1 with
  | refl =>
    subst he
    cases h2 with
    | refl => exact ⟨rfl, rfl⟩
    | step hn _ => simp [Threads.Pc.next] at hn
  | step hn _ ih =>
    cases h2 with
    | refl => simp [Threads.Pc.next] at hn
    | step hn' h2 =>
      rw [hn] at hn'
      cases hn'
      exact ih h2 he

theorem leads_erase_state {α : Type} {h : Hier} {fs s : Fs} {key : Str} {k : Outcome Bool → Prog α} {pc' : Pc α}
    (hL : Leads h (.prog (.erase key k)) fs pc' s) : s ∈ eraseStates h key fs ∨
      Leads h (.prog (k (storeErase h key fs).1)) (storeErase h key fs).2 pc' s := by
  have hL' : Leads h (.ofBase (.prog (.erase key fun r => .done (.ok (k r))))) fs pc' s ∨ s = fs := by
    cases hL with
    | refl => exact .inr rfl
    | step hn hr => exact .inl (.step hn hr)
  rcases hL' with hL' | rfl
  · rcases leads_split hL' rfl with hl | ⟨P, fs1, h1, h2⟩
    · rw [Threads.left_erase, Threads.left_done] at hl
      rcases hl with hl | rfl
      · exact .inl hl
      · exact .inl (by simp [eraseStates])
    · obtain ⟨e1, rfl⟩ := finish_unique_base (Threads.leads_erase key fun r => .done (.ok (k r))) h1
      cases e1
      exact .inr h2
  · exact .inl (by simp [eraseStates])

theorem run_left {α : Type} {h : Hier} {pc : Pc α} {fs0 : Fs} : ∀ {ts : List Nat} {s' : Sys α},
    (⟨fs0, [pc]⟩ : Sys α).run h ts = some s' → ∃ pc', Leads h pc fs0 pc' s'.fs := by
  intro ts
  induction ts generalizing pc fs0 with
  | nil => intro s' hr; cases hr; exact ⟨pc, .refl ..⟩
  | cons t ts ih =>
    intro s' hr
    rw [Sys.run] at hr
    obtain ⟨s1, h1, h2⟩ := Option.bind_eq_some_iff.mp hr
    unfold Sys.advance at h1
    obtain ⟨pc0, h3, h4⟩ := Option.bind_eq_some_iff.mp h1
    rw [Option.map_eq_some_iff] at h4
    obtain ⟨r, h5, rfl⟩ := h4
    cases t with
    | succ t => simp at h3
    | zero =>
      simp only [List.getElem?_cons_zero, Option.some.injEq] at h3
      subst h3
      obtain ⟨pc', hl⟩ := ih h2
      exact ⟨pc', .step (next_nil h5) hl⟩

end Wide

open Spec in
/-- **C71** (the states of `remove`). A thread that removes a node, system call by system call, is always in one of the
states that `RemoveState` allows, which C71, C72 and C73 are about. -/
theorem C71_runs_remove (h : Hier) (p : Str) (fs : Fs) (hwf : fs.WF) (hnm : fs.Named) (hb : Plain (segs h.base))
    (hs : GoodSuffix h.entry) (hp : Plain (segs p)) (ts : List Nat) (s' : Wide.Sys Unit)
    (hr : (Wide.Sys.initial fs [Wide.remove h p]).run h ts = some s') : RemoveState h p fs s'.fs := by
  obtain ⟨pc', hL⟩ := Wide.run_left hr
  have pg : Plain (h.loc (groupMetadataKey h.entry p)) := by
    rw [loc_groupKey hs hp]; exact plain_docLoc hb hp (by simp)
  have pa : Plain (h.loc (arrayMetadataKey h.entry p)) := by
    rw [loc_arrayKey hs hp]; exact plain_docLoc hb hp (by simp)
  have pd : Plain (h.loc (dataPathKey p)) := by rw [loc_dataKey]; exact plain_dataLoc hb hp
  have hd : h.loc (dataPathKey p) ≠ [] := by rw [loc_dataKey]; exact dataLoc_ne_nil h p
  have hfin : ∀ {r : Outcome Unit} {f f' : Fs} {pc' : Wide.Pc Unit}, Wide.Leads h (.prog (.done r)) f pc' f' → f' = f := by
    intro r f f' pc' hl
    cases hl with
    | refl => rfl
    | step hn _ => simp [Wide.Pc.next] at hn
  let k2 : Outcome Bool → Wide.Prog Unit := fun r => (Wide.Prog.done r).bind fun _ => .done (.ok ())
  let k1 : Outcome Bool → Wide.Prog Unit := fun r => (Wide.Prog.done r).bind fun _ => .erasePrefix (dataPathKey p) k2
  let k0 : Outcome Bool → Wide.Prog Unit := fun r => (Wide.Prog.done r).bind fun _ => .erase (arrayMetadataKey h.entry p) k1
  have hL0 : Wide.Leads h (.prog (.erase (groupMetadataKey h.entry p) k0)) fs pc' s'.fs := hL
  unfold RemoveState
  have hw1 := (storeErase_frame hwf pg (Prod.eta _).symm).1
  have hn1 := storeErase_named hwf hnm pg
  rcases Wide.leads_erase_state hL0 with hc | hL1
  · exact .inl hc
  revert hL1 hw1 hn1
  cases he1 : storeErase h (groupMetadataKey h.entry p) fs with
  | mk o1 fs1 =>
    intro hw1 hn1 hL1
    have hmem1 : fs1 ∈ eraseStates h (groupMetadataKey h.entry p) fs := by simp [eraseStates, he1]
    cases o1 with
    | err e => rw [hfin hL1]; exact .inl hmem1
    | panic => rw [hfin hL1]; exact .inl hmem1
    | ok b1 =>
      refine .inr ⟨⟨b1, rfl⟩, ?_⟩
      have hw2 := (storeErase_frame hw1 pa (Prod.eta _).symm).1
      have hn2 := storeErase_named hw1 hn1 pa
      rcases Wide.leads_erase_state (show Wide.Leads h (.prog (.erase (arrayMetadataKey h.entry p) k1)) fs1 pc' s'.fs from hL1)
        with hc | hL2
      · exact .inl hc
      revert hL2 hw2 hn2
      simp only
      cases he2 : storeErase h (arrayMetadataKey h.entry p) fs1 with
      | mk o2 fs2 =>
        intro hw2 hn2 hL2
        have hmem2 : fs2 ∈ eraseStates h (arrayMetadataKey h.entry p) fs1 := by simp [eraseStates, he2]
        cases o2 with
        | err e => rw [hfin hL2]; exact .inl hmem2
        | panic => rw [hfin hL2]; exact .inl hmem2
        | ok b2 =>
          refine .inr ⟨⟨b2, rfl⟩, ?_⟩
          refine Wide.leads_erasePrefix_state (k := k2) (pc' := pc') ?_ hw2 hn2 pd hd hL2
          intro r
          cases r <;> exact ⟨_, rfl⟩

open Spec in
/-- So what C71 says of a crash inside a call, it says of every point of every run of the call. -/
theorem C71_every_point (env : Env) (h : Hier) (op : NodeOp) (fs s : Fs) (hwf : fs.WF) (hnm : fs.Named)
    (hb : Plain (segs h.base)) (hs : GoodSuffix h.entry) (hp : op.NoDotDot)
    (hrun : (∃ q ts s', op.prog env h = some q ∧ (Threads.Sys.initial fs [q]).run h ts = some s' ∧ s'.fs = s) ∨
      ∃ p ts s', op = .remove p ∧ (Wide.Sys.initial fs [Wide.remove h p]).run h ts = some s' ∧ s'.fs = s) :
    s.WF ∧
    (∀ l, ¬ op.Touches h l → s.content l = fs.content l) ∧
    (∀ l, s.content l = fs.content l ∨ s.content l = (op.run env h fs).content l ∨
      ∃ v n, (op.run env h fs).content l = some v ∧ s.content l = some (v.take n)) ∧
    (∀ q, Plain (segs q) → segs q ≠ segs op.path →
      (getArrayMetadata env h q s).1 = (getArrayMetadata env h q fs).1 ∧
      (listAttributes env h q s).1 = (listAttributes env h q fs).1) ∧
    (∀ q m t pos, Plain (segs (chunkKey q m pos)) → ¬ op.Touches h (h.loc (chunkKey q m pos)) →
      (readChunk env h q m t pos s).1 = (readChunk env h q m t pos fs).1) := by
  refine C71 env h op fs s hwf hb hs hp ?_
  rcases hrun with ⟨q, ts, s', hq, hr, he⟩ | ⟨p, ts, s', rfl, hr, rfl⟩
  · exact (C71_runs env h op q hq fs s).mpr ⟨ts, s', hr, he⟩
  · exact C71_runs_remove h p fs hwf hnm hb hs hp ts s' hr

/-- In the middle of `remove`, when the chunk is gone and its directory is not. -/
example : ∃ s, (∃ ts s', (Wide.Sys.initial Demo.chunkFs [Wide.remove Demo.hier Demo.path]).run Demo.hier ts = some s' ∧
      s'.fs = s) ∧
    s.get (Demo.hier.loc (chunkKey Demo.path Demo.arr [1])) = none ∧
    s.get (Spec.dataLoc Demo.hier Demo.path) = some .dir := by
  have h : (((Wide.Sys.initial Demo.chunkFs [Wide.remove Demo.hier Demo.path]).run Demo.hier (List.replicate 10 0)).map
      fun s => decide (s.fs.get (Demo.hier.loc (chunkKey Demo.path Demo.arr [1])) = none ∧
        s.fs.get (Spec.dataLoc Demo.hier Demo.path) = some .dir)) = some true := by decide +kernel
  obtain ⟨s', h1, h2⟩ := Option.map_eq_some_iff.mp h
  exact ⟨s'.fs, ⟨_, s', h1, rfl⟩, of_decide_eq_true h2⟩

end Zarr
