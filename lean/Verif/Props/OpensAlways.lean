import Verif.Props.Opens
import Verif.Props.CrashExact
/-!
# Calls of `open_or_create` that fail, for every new hierarchy: the failing case of C98
-/

namespace Zarr.Opens

variable {env : Env} {base : Str} {fs0 fs fs' : Fs}

theorem not_atLeast {n : Nat} (ha : fs.get (place base) = none) : ¬ AtLeast env base fs n := by
  rintro ⟨c, hc, _⟩
  rw [ha] at hc
  cases hc

/-- Before the file is there, a call of `open_or_create` need not wait, and the file is empty when it is made. -/
theorem step_absent {pc : Pc} (pcs : List Pc) (g : Good env base fs0 fs) (hpc : PcOk env base fs true pc)
    (ha : fs.get (place base) = none) :
    ∃ pc' fs', pc.next env base pcs fs = some (pc', fs') ∧
      (fs'.get (place base) = none ∨ fs'.get (place base) = some (.file [])) := by
  cases pc with
  | check => exact ⟨_, _, rfl, .inl ha⟩
  | mkdirDown n =>
    unfold Pc.next
    dsimp only
    by_cases h0 : n = 0
    · rw [if_pos h0]; exact ⟨_, _, rfl, .inl ha⟩
    · rw [if_neg h0]
      rcases g.mkdir_cases h0 hpc.1 with ⟨f, e, _, _, _, h4⟩ | ⟨e, _⟩ | ⟨e, _⟩ <;> rw [e]
      · exact ⟨_, _, rfl, .inl (h4.trans ha)⟩
      · exact ⟨_, _, rfl, .inl ha⟩
      · exact ⟨_, _, rfl, .inl ha⟩
  | mkdirDir n e => exact ⟨_, _, rfl, .inl ha⟩
  | mkdirUp n =>
    unfold Pc.next
    dsimp only
    by_cases h0 : (segs base).length < n
    · rw [if_pos h0]; exact ⟨_, _, rfl, .inl ha⟩
    · rw [if_neg h0]
      rcases g.mkdir_cases (by have := hpc.1; omega) (by omega : n ≤ _) with ⟨f, e, _, _, _, h4⟩ | ⟨e, _⟩ | ⟨e, _⟩ <;> rw [e]
      · exact ⟨_, _, rfl, .inl (h4.trans ha)⟩
      · exact ⟨_, _, rfl, .inl ha⟩
      · exact ⟨_, _, rfl, .inl ha⟩
  | openNew =>
    unfold Pc.next
    dsimp only
    rw [segs_entryPoint, openCreate_plain g.wf g.plain' hpc.1, show fs.get (segs base ++ [str!"zarr.json"]) = none from ha]
    exact ⟨_, _, rfl, .inr (by rw [Fs.get_put, if_pos]; rfl)⟩
  | lock l => exact absurd hpc.2.1 (not_atLeast ha)
  | write l n => exact absurd hpc.2.1 (not_atLeast ha)
  | readOpen => exact absurd (hpc rfl) (not_atLeast ha)
  | read l acc => exact absurd hpc.2.2 (not_atLeast ha)
  | done r =>
    rcases hpc with ⟨_, h⟩ | ⟨h, _⟩ | ⟨h, _⟩
    · exact absurd h (not_atLeast ha)
    · exact absurd h (not_atLeast ha)
    · cases h

/-- A call of `open_or_create` can go on until it has made the file. -/
theorem runs_until_made (hj : env.json.Lawful) {calls : List Bool} {t : Nat} (ht : calls[t]? = some true) (n : Nat) :
    ∀ (s : Sys) (pc : Pc), Inv env base fs0 calls s → s.pcs[t]? = some pc → rank env base pc = n →
      s.fs.get (place base) = none →
      ∃ sched s', s.run env base sched = some s' ∧ s'.fs.get (place base) = some (.file []) ∧
        ∀ u, u ≠ t → s'.pcs[u]? = s.pcs[u]? := by
  induction n using Nat.strongRecOn with
  | _ n ih =>
    intro s pc i hp hr ha
    have hok := i.pcs t true pc ht hp
    obtain ⟨pc', fs', hn, hx⟩ := step_absent s.pcs i.good hok ha
    have hadv : s.advance env base t = some ⟨fs', s.pcs.set t pc'⟩ := by
      simp only [Sys.advance, hp, Option.bind_some, hn, Option.map_some]
    have hothers : ∀ u, u ≠ t → (s.pcs.set t pc')[u]? = s.pcs[u]? := fun u hu =>
      List.getElem?_set_ne (Ne.symm hu)
    rcases hx with hx | hx
    · have hlt := (List.getElem?_eq_some_iff.mp hp).1
      obtain ⟨sched, s', h1, h2, h3⟩ := ih (rank env base pc')
        (by rw [← hr]; exact (step hj i.good hok hn).2.2.2.2.2.2) ⟨fs', s.pcs.set t pc'⟩ pc' (i.advance hj hadv).1
        (List.getElem?_set_self hlt) rfl hx
      exact ⟨t :: sched, s', by rw [Sys.run, hadv]; exact h1, h2, fun u hu => (h3 u hu).trans (hothers u hu)⟩
    · exact ⟨[t], ⟨fs', s.pcs.set t pc'⟩, by rw [Sys.run, hadv]; rfl, hx, hothers⟩

/-- **C98 (violated), in general.** Let any calls of `open_or_create` and `open` be made at the same time for a base path
where there is no hierarchy, at least one of them `open_or_create`. Each of the others can fail: there is an order of
the system calls in which it finds `zarr.json` empty and returns an error. -/
theorem C98_violated_always (env : Env) (base : Str) (fs : Fs) (calls : List Bool) (hj : env.json.Lawful)
    (hn : Spec.New base fs) (t u : Nat) (ht : calls[t]? = some true) (hu : u < calls.length) (hne : u ≠ t) :
    ∃ sched s, (Sys.initial fs calls).run env base sched = some s ∧ s.result u = some (.err .json) := by
  have i := Inv.initial (env := env) hn calls
  have hbegin : ∀ v, (Sys.initial fs calls).pcs[v]? = (calls[v]?).map begin := fun v => List.getElem?_map ..
  obtain ⟨s1, s, h1, h2, h3⟩ := runs_until_made hj ht _ _ (begin true) i (by rw [hbegin, ht]; rfl) rfl hn.absent
  have i1 := (i.run hj h1).1
  have hpu : s.pcs[u]? = some (begin calls[u]) := by
    rw [h3 u hne, hbegin, List.getElem?_eq_getElem hu]; rfl
  have hlt : u < s.pcs.length := (List.getElem?_eq_some_iff.mp hpu).1
  -- from `File::open` on
  have hread : ∀ pcs : List Pc, u < pcs.length → pcs[u]? = some .readOpen →
      ∃ s', (Sys.mk s.fs pcs).run env base [u, u] = some s' ∧ s'.result u = some (.err .json) := by
    intro pcs hl hp
    have e1 : (Sys.mk s.fs pcs).advance env base u = some ⟨s.fs, pcs.set u (.read (place base) [])⟩ := by
      have hloc : s.fs.locate (segs (joinPath base entryPointKey)) = .ok (place base) := by
        rw [segs_entryPoint]
        exact Fs.locate_of_get i1.good.wf i1.good.plain' h2
      simp only [Sys.advance, hp, Option.bind_some, Pc.next, hloc, h2, Option.isSome_some, if_true, Option.map_some]
    have e2 : (Sys.mk s.fs (pcs.set u (.read (place base) []))).advance env base u =
        some ⟨s.fs, (pcs.set u (.read (place base) [])).set u (.done (.err .json))⟩ := by
      simp only [Sys.advance, List.getElem?_set_self hl, Option.bind_some, Pc.next, h2, List.length_nil,
        List.getElem?_nil, Option.map_some, parseEntryPoint, hj.raw_nil]
      rfl
    refine ⟨_, by simp only [Sys.run, e1, e2, Option.bind_some]; rfl, ?_⟩
    simp only [Sys.result, List.set_set, List.getElem?_set_self hl]
  have happ : ∀ (a b : List Nat) (x : Sys), x.run env base (a ++ b) = (x.run env base a).bind fun y => y.run env base b := by
    intro a b
    induction a with
    | nil => exact fun x => rfl
    | cons v a ih =>
      intro x
      simp only [List.cons_append, Sys.run]
      cases x.advance env base v with
      | none => rfl
      | some y => exact ih y
  cases hc : calls[u] with
  | false =>
    rw [hc] at hpu
    obtain ⟨s', r1, r2⟩ := hread s.pcs hlt hpu
    exact ⟨s1 ++ [u, u], s', by rw [happ, h1]; exact r1, r2⟩
  | true =>
    rw [hc] at hpu
    have hex : s.fs.pathExists (segs (joinPath base entryPointKey)) = true :=
      i1.good.exists_iff.mpr ⟨0, by rw [List.take_zero]; exact h2, Nat.le_refl _, Nat.zero_le _⟩
    have e0 : s.advance env base u = some ⟨s.fs, s.pcs.set u .readOpen⟩ := by
      simp only [Sys.advance, hpu, Option.bind_some, begin, if_true, Pc.next, hex, Option.map_some]
    obtain ⟨s', r1, r2⟩ := hread (s.pcs.set u .readOpen) (by simpa using hlt) (List.getElem?_set_self hlt)
    refine ⟨s1 ++ [u, u, u], s', ?_, r2⟩
    rw [happ, h1, Option.bind_some, Sys.run, e0, Option.bind_some]
    exact r1

/-- Three calls in an empty filesystem; the last two can fail. -/
example : ∀ u, u < 3 → u ≠ 0 → ∃ sched s,
    (Sys.initial Demo.emptyFs [true, false, true]).run Demo.envV str!"/h" sched = some s ∧
      s.result u = some (.err .json) :=
  fun u hu h0 => C98_violated_always Demo.envV str!"/h" Demo.emptyFs [true, false, true] jsonText_lawful demoNew 0 u rfl hu h0

/-- **C98 (partial), for JSON text.** `C98_partial` without the hypothesis about beginnings of the document: no proper
beginning of a JSON text of an object is a JSON text. -/
theorem C98_partial_text (env : Env) (base : Str) (fs : Fs) (calls : List Bool) (he : env.json = jsonText)
    (hv : Spec.Compatible env EntryPointMetadata.default) (hn : Spec.New base fs) :
    let loc := segs base ++ [str!"zarr.json"]
    let doc := env.json.print EntryPointMetadata.default.toJson
    let hier : Hier := ⟨base, EntryPointMetadata.default⟩
    ∃ bound, ∀ sched s, (Sys.initial fs calls).run env base sched = some s →
      ((∀ l, ¬ l <+: segs base → l ≠ loc → s.fs.get l = fs.get l) ∧
        (∀ l, l <+: segs base → s.fs.get l = none ∨ s.fs.get l = some .dir) ∧
        (s.fs.get loc = none ∨ ∃ n, s.fs.get loc = some (.file (doc.take n)))) ∧
      (∀ (t : Nat) create r, calls[t]? = some create → s.result t = some r →
        (r = .ok hier ∧ s.fs.get loc = some (.file doc)) ∨ (r = .err .json ∧ s.fs.get loc ≠ none) ∨
        (create = false ∧ r = .err .notFound)) ∧
      (s.fs.get loc = some (.file doc) → ∀ sched' s', s.run env base sched' = some s' →
        s'.fs.get loc = some (.file doc) ∧
        ∀ t r, s.result t = none → s'.result t = some r → r = .ok hier) ∧
      (sched.length ≤ bound ∧ ((∀ t, t < calls.length → (s.result t).isSome) ∨
        ∃ t s', s.advance env base t = some s')) ∧
      ((∀ t, t < calls.length → (s.result t).isSome) → true ∈ calls →
        (∃ t : Nat, calls[t]? = some true ∧ s.result t = some (.ok hier)) ∧
        s.fs.get loc = some (.file doc) ∧ openHier env base s.fs = (.ok hier, s.fs)) :=
  C98_partial env base fs calls (by rw [he]; exact jsonText_lawful) hv hn (Spec.Uncuttable.documents he).1

/-- The hypotheses are met by the usual environment and a directory with nothing in it, here for four calls. -/
example : ∃ bound, ∀ sched s, (Sys.initial Demo.emptyFs [true, false, true, true]).run Demo.envV str!"/h" sched = some s →
    sched.length ≤ bound := by
  obtain ⟨bound, h⟩ := C98_partial_text Demo.envV str!"/h" Demo.emptyFs [true, false, true, true] rfl
    (compatible_iff.mpr (by decide)) demoNew
  exact ⟨bound, fun sched s hs => (h sched s hs).2.2.2.1.1⟩

end Zarr.Opens
