import Verif.Model.Crash
import Verif.Props.Open
/-!
# Crashes: C45, C46
-/

namespace Zarr

open Spec

/-! ## The states start and end where the call does -/

theorem mkdirStates_suffix {r : List Str} {fs s : Fs} (hs : s ∈ Fs.mkdirAllRevStates r fs) :
    ∃ q, q <:+ r ∧ s = (Fs.mkdirAllRev q fs).2 ∧ (Fs.mkdirAllRev q fs).1 = .ok () := by
  induction r with
  | nil => simp [Fs.mkdirAllRevStates] at hs
  | cons a r ih =>
    unfold Fs.mkdirAllRevStates at hs
    cases hm : fs.mkdir (a :: r).reverse with
    | ok fs' =>
      rw [hm] at hs
      simp only [List.mem_singleton] at hs
      subst hs
      refine ⟨a :: r, List.suffix_refl _, ?_⟩
      rw [Fs.mkdirAllRev, hm]
      exact ⟨rfl, rfl⟩
    | panic => rw [hm] at hs; simp at hs
    | err e =>
      rw [hm] at hs
      simp only at hs
      split at hs
      · rename_i he
        rcases List.mem_append.mp hs with hs | hs
        · obtain ⟨q, h1, h2⟩ := ih hs
          exact ⟨q, h1.trans (List.suffix_cons _ _), h2⟩
        · cases hr : Fs.mkdirAllRev r fs with
          | mk o fs1 =>
            rw [hr] at hs
            cases o with
            | err e' => simp at hs
            | panic => simp at hs
            | ok u =>
              simp only at hs
              cases hm2 : fs1.mkdir (a :: r).reverse with
              | err e' => rw [hm2] at hs; simp at hs
              | panic => rw [hm2] at hs; simp at hs
              | ok fs2 =>
                rw [hm2] at hs
                simp only [List.mem_singleton] at hs
                subst hs
                refine ⟨a :: r, List.suffix_refl _, ?_⟩
                rw [Fs.mkdirAllRev, hm]
                simp only [he, if_true, hr, hm2, and_self]
      · simp at hs

theorem mkdirStates_last {r : List Str} {fs : Fs} (d : Fs) :
    (fs :: Fs.mkdirAllRevStates r fs).getLast?.getD d = (Fs.mkdirAllRev r fs).2 := by
  induction r with
  | nil => simp only [Fs.mkdirAllRevStates, Fs.mkdirAllRev]; split <;> rfl
  | cons a r ih =>
    rw [Fs.mkdirAllRev]
    simp only [Fs.mkdirAllRevStates]
    cases hm : fs.mkdir (a :: r).reverse with
    | ok fs' => rfl
    | panic => rfl
    | err e =>
      simp only
      split
      · cases hr : Fs.mkdirAllRev r fs with
        | mk o fs1 =>
          rw [hr] at ih
          cases o with
          | err e' => simpa using ih
          | panic => simpa using ih
          | ok u =>
            simp only
            cases hm2 : fs1.mkdir (a :: r).reverse with
            | err e' => simp only; split <;> simpa using ih
            | panic => simpa using ih
            | ok fs2 => rw [← List.cons_append, List.getLast?_concat]; rfl
      · split <;> rfl

theorem writeStates_last {fs : Fs} {l : Loc} {old new : Bytes} {pre : List Fs} (d : Fs) :
    (pre ++ writeStates fs l old new).getLast?.getD d
      = fs.put l (.file (new ++ old.drop new.length)) := by
  unfold writeStates
  rw [List.range_succ, List.map_append, ← List.append_assoc]
  simp

/-- The first state is the one before the call and the last is the one after it. -/
theorem setStates_ends (h : Hier) (key : Str) (v : Bytes × Outcome Unit) (fs d : Fs) :
    (setStates h key v.1 fs).head? = some fs ∧
    (setStates h key v.1 fs).getLast?.getD d = (storeSet h key v fs).2 := by
  unfold setStates storeSet
  cases getPath h.base key with
  | err e => exact ⟨rfl, rfl⟩
  | panic => exact ⟨rfl, rfl⟩
  | ok target =>
    simp only
    have hskip : (segs target).isEmpty = true ∨ fs.pathExists (segs target).dropLast = true ↔
        ((segs target).isEmpty || fs.pathExists (segs target).dropLast) = true := by simp
    have hlast : ∀ (b : Bool), ((fs :: (if b then [] else Fs.mkdirAllStates (segs target).dropLast fs))
        |>.getLast?.getD d) = (if b then ((.ok () : Outcome Unit), fs)
          else Fs.mkdirAll (segs target).dropLast fs).2 := by
      intro b
      cases b with
      | true => rfl
      | false =>
        simp only [Bool.false_eq_true, if_false]
        have := mkdirStates_last (r := (segs target).dropLast.reverse) (fs := fs) d
        unfold Fs.mkdirAllStates Fs.mkdirAll
        exact this
    simp only [hskip]
    have hl := hlast ((segs target).isEmpty || fs.pathExists (segs target).dropLast)
    generalize ((segs target).isEmpty || fs.pathExists (segs target).dropLast) = b at hl ⊢
    generalize (if b then ((.ok () : Outcome Unit), fs)
          else Fs.mkdirAll (segs target).dropLast fs) = mk at hl ⊢
    generalize (if b then [] else Fs.mkdirAllStates (segs target).dropLast fs) = dirs at hl ⊢
    obtain ⟨o, fs1⟩ := mk
    cases o with
    | err e => exact ⟨rfl, hl⟩
    | panic => exact ⟨rfl, hl⟩
    | ok u =>
      simp only
      cases Fs.openCreate (segs target) fs1 with
      | err e => exact ⟨rfl, hl⟩
      | panic => exact ⟨rfl, hl⟩
      | ok r =>
        obtain ⟨l, fs2⟩ := r
        refine ⟨rfl, ?_⟩
        have := writeStates_last (fs := fs2) (l := l) (old := []) (new := v.1)
          (pre := fs :: (dirs ++ [fs2])) d
        simpa using this

/-- Every prefix of the value is left behind by a crash at some point of a `set` that would have succeeded: the list
of states leaves out none of them. -/
theorem C46_every (h : Hier) (key : Str) (value : Bytes) (fs fs' : Fs)
    (hw : storeSet h key (value, .ok ()) fs = (.ok (), fs')) (n : Nat) (hn : n ≤ value.length) :
    ∃ s ∈ setStates h key value fs, storeGet h key s = (.ok (some (value.take n)), s) := by
  have key1 : ∀ s, storeSet h key (value.take n, .ok ()) fs = (.ok (), s) → s ∈ setStates h key value fs →
      ∃ s ∈ setStates h key value fs, storeGet h key s = (.ok (some (value.take n)), s) :=
    fun s h1 h2 => ⟨s, h2, storeGet_of_storeSet h1⟩
  unfold storeSet at hw key1
  unfold setStates at key1 ⊢
  cases hg : getPath h.base key with
  | err e => rw [hg] at hw; simp at hw
  | panic => rw [hg] at hw; simp at hw
  | ok target =>
    rw [hg] at hw key1
    simp only at hw key1 ⊢
    have hskip : (segs target).isEmpty = true ∨ fs.pathExists (segs target).dropLast = true ↔
        ((segs target).isEmpty || fs.pathExists (segs target).dropLast) = true := by simp
    simp only [hskip] at hw key1
    generalize ((segs target).isEmpty || fs.pathExists (segs target).dropLast) = b at hw key1 ⊢
    generalize (if b then ((.ok () : Outcome Unit), fs)
          else Fs.mkdirAll (segs target).dropLast fs) = mk at hw key1 ⊢
    obtain ⟨o, fs1⟩ := mk
    cases o with
    | err e => simp at hw
    | panic => simp at hw
    | ok u =>
      simp only at hw key1 ⊢
      cases ho : Fs.openCreate (segs target) fs1 with
      | err e => rw [ho] at hw; simp at hw
      | panic => rw [ho] at hw; simp at hw
      | ok r =>
        rw [ho] at key1
        obtain ⟨l, fs2⟩ := r
        simp only at key1 ⊢
        refine key1 _ rfl (List.mem_cons_of_mem _ (List.mem_append_right _ (List.mem_cons_of_mem _ ?_)))
        unfold writeStates
        refine List.mem_map.mpr ⟨n, List.mem_range.mpr (by omega), by simp⟩

/-! ## C46 -/

theorem mkdirStates_spec {p : List Str} {fs s : Fs} (hwf : fs.WF) (hp : Plain p)
    (hs : s ∈ Fs.mkdirAllStates p fs) :
    s.WF ∧ ∃ q, q <+: p ∧ fs.dirable q ∧ ∀ l, s.get l = Fs.mkdirSpec fs q l := by
  unfold Fs.mkdirAllStates at hs
  obtain ⟨q, h1, h2, h3⟩ := mkdirStates_suffix hs
  have hq : q.reverse <+: p := by
    have := List.reverse_prefix.mpr h1
    simpa using this
  have hpq : Plain q.reverse := fun hm => hp (hq.subset hm)
  obtain ⟨m1, m2⟩ := Fs.mkdirAll_spec hwf q.reverse hpq
  by_cases hd : fs.dirable q.reverse
  · obtain ⟨fs', e1, e2, e3⟩ := m1 hd
    unfold Fs.mkdirAll at e1
    rw [List.reverse_reverse] at e1
    rw [e1] at h2
    subst h2
    exact ⟨e2, q.reverse, hq, hd, e3⟩
  · obtain ⟨e, e1⟩ := m2 hd
    unfold Fs.mkdirAll at e1
    rw [List.reverse_reverse] at e1
    rw [e1] at h3
    simp at h3

theorem mkdirSpec_content {fs s : Fs} {q : Loc} (h : ∀ l, s.get l = Fs.mkdirSpec fs q l) (l : Loc) :
    s.content l = fs.content l := by
  unfold Fs.content
  rw [h l, Fs.mkdirSpec]
  by_cases hc : l <+: q ∧ fs.get l = none
  · rw [if_pos hc, hc.2]
  · rw [if_neg hc]

theorem insert_insert (es : List (Loc × Node)) (l : Loc) (n : Node) :
    Fs.insert (Fs.insert es l n) l n = Fs.insert es l n := by
  induction es with
  | nil => simp [Fs.insert]
  | cons e es ih =>
    obtain ⟨k, m⟩ := e
    by_cases h : k = l <;> simp [Fs.insert, h, ih]

theorem mem_writeStates {fs s : Fs} {l : Loc} {old new : Bytes} (h : s ∈ writeStates fs l old new) :
    ∃ n, n ≤ new.length ∧ s = fs.put l (.file (new.take n ++ old.drop n)) := by
  simp only [writeStates, List.mem_map, List.mem_range] at h
  obtain ⟨n, hn, rfl⟩ := h
  exact ⟨n, by omega, rfl⟩

/-- Each state of a write is one in which directories may have been made, or the result of writing a
shorter value. -/
theorem setStates_cases {h : Hier} {key : Str} {value : Bytes} {fs s : Fs} (hwf : fs.WF)
    (hp : Plain (h.loc key)) (hs : s ∈ setStates h key value fs) :
    (s.WF ∧ ∃ q, q <+: (h.loc key).dropLast ∧ ∀ l, s.get l = Fs.mkdirSpec fs q l) ∨
    ∃ n, storeSet h key (value.take n, .ok ()) fs = (.ok (), s) := by
  have hstart : ∀ p : Loc, ∃ q, q <+: p ∧ ∀ l, fs.get l = Fs.mkdirSpec fs q l := by
    refine fun p => ⟨[], List.nil_prefix, fun l => ?_⟩
    rw [Fs.mkdirSpec, if_neg]
    rintro ⟨h1, h2⟩
    rw [List.prefix_nil.mp h1, hwf.root] at h2
    simp at h2
  obtain ⟨t, ht, hseg⟩ := getPath_loc hp
  have hpd : Plain (h.loc key).dropLast := fun hm => hp (List.dropLast_subset _ hm)
  unfold setStates at hs
  rw [ht] at hs
  simp only [hseg] at hs
  have hset : ∀ v, storeSet h key (v, .ok ()) fs =
      match (if ((h.loc key).isEmpty || fs.pathExists (h.loc key).dropLast) = true
          then ((.ok () : Outcome Unit), fs) else Fs.mkdirAll (h.loc key).dropLast fs) with
      | (.err e, fs1) => (.err e, fs1)
      | (.panic, fs1) => (.panic, fs1)
      | (.ok (), fs1) =>
        match Fs.openCreate (h.loc key) fs1 with
        | .err e => (.err e, fs1)
        | .panic => (.panic, fs1)
        | .ok (l, fs2) => (.ok (), fs2.put l (.file v)) := by
    intro v
    unfold storeSet
    rw [ht]
    simp only [hseg]
    by_cases hc : ((h.loc key).isEmpty || fs.pathExists (h.loc key).dropLast) = true
    · rw [if_pos hc, if_pos (by simpa using hc)]
      rfl
    · rw [if_neg hc, if_neg (by simpa using hc)]
      rfl
  generalize h.loc key = p at hp hpd hs hset
  have hdirs : s ∈ fs :: (if (p.isEmpty || fs.pathExists p.dropLast) = true then []
      else Fs.mkdirAllStates p.dropLast fs) →
      s.WF ∧ ∃ q, q <+: p.dropLast ∧ ∀ l, s.get l = Fs.mkdirSpec fs q l := by
    intro hm
    rcases List.mem_cons.mp hm with rfl | hm
    · exact ⟨hwf, hstart _⟩
    · split at hm
      · simp at hm
      · obtain ⟨h1, q, h2, _, h3⟩ := mkdirStates_spec hwf hpd hm
        exact ⟨h1, q, h2, h3⟩
  have hmk : ∀ fs1, (if (p.isEmpty || fs.pathExists p.dropLast) = true
      then ((.ok () : Outcome Unit), fs) else Fs.mkdirAll p.dropLast fs) = (.ok (), fs1) →
      fs1.WF ∧ ∃ q, q <+: p.dropLast ∧ ∀ l, fs1.get l = Fs.mkdirSpec fs q l := by
    intro fs1 he
    split at he
    · simp at he; subst he; exact ⟨hwf, hstart _⟩
    · obtain ⟨m1, m2⟩ := Fs.mkdirAll_spec hwf p.dropLast hpd
      by_cases hd : fs.dirable p.dropLast
      · obtain ⟨fs', e1, e2, e3⟩ := m1 hd
        rw [e1] at he
        simp only [Prod.mk.injEq, true_and] at he
        subst he
        exact ⟨e2, _, List.prefix_refl _, e3⟩
      · obtain ⟨e, e1⟩ := m2 hd
        rw [e1] at he
        simp at he
  generalize (if (p.isEmpty || fs.pathExists p.dropLast) = true then []
      else Fs.mkdirAllStates p.dropLast fs) = dirs at hs hdirs
  generalize (if (p.isEmpty || fs.pathExists p.dropLast) = true
      then ((.ok () : Outcome Unit), fs) else Fs.mkdirAll p.dropLast fs) = mk at hs hmk hset
  obtain ⟨o, fs1⟩ := mk
  cases o with
  | err e => exact .inl (hdirs hs)
  | panic => exact .inl (hdirs hs)
  | ok u =>
    simp only at hs hset
    obtain ⟨w1, w2⟩ := hmk fs1 rfl
    cases ho : Fs.openCreate p fs1 with
    | err e => rw [ho] at hs; exact .inl (hdirs hs)
    | panic => rw [ho] at hs; exact .inl (hdirs hs)
    | ok r =>
      obtain ⟨l, fs2⟩ := r
      rw [ho] at hs
      simp only at hs
      have hopen : (fs2 = fs1) ∨ fs2 = fs1.put l (.file []) := by
        unfold Fs.openCreate at ho
        split at ho
        · split at ho
          · simp at ho; exact .inl ho.2.symm
          · simp at ho
          · simp only [Outcome.ok.injEq, Prod.mk.injEq] at ho
            obtain ⟨rfl, rfl⟩ := ho
            exact .inr rfl
        · simp at ho
        · simp at ho
      simp only [ho] at hset
      rw [List.mem_cons, List.mem_append, List.mem_cons] at hs
      rcases hs with hs | hs | hs | hs
      · exact .inl (hdirs (by simp [hs]))
      · exact .inl (hdirs (by simp [hs]))
      · rcases hopen with h1 | h1
        · rw [hs, h1]; exact .inl ⟨w1, w2⟩
        · right
          refine ⟨0, ?_⟩
          rw [hset, hs]
          simp only [List.take_zero]
          rw [h1]
          simp only [Fs.put, insert_insert]
      · obtain ⟨n, _, hn⟩ := mem_writeStates hs
        refine .inr ⟨n, ?_⟩
        rw [hset, hn]
        simp

/-- **C46.** If the process dies inside a store write, every other key keeps its value and the written
key holds its old value (or is still missing) or a prefix of the new one. -/
theorem C46 (h : Hier) (key : Str) (value : Bytes) (fs s : Fs) (hwf : fs.WF)
    (hp : Plain (h.loc key)) (hs : s ∈ setStates h key value fs) :
    s.WF ∧
    (∀ key', Plain (h.loc key') → h.loc key' ≠ h.loc key →
      (storeGet h key' s).1 = (storeGet h key' fs).1) ∧
    ((storeGet h key s).1 = (storeGet h key fs).1 ∨
      ∃ n, (storeGet h key s).1 = .ok (some (value.take n))) := by
  rcases setStates_cases hwf hp hs with ⟨h1, q, _, hq⟩ | ⟨n, hn⟩
  · have h2 := mkdirSpec_content hq
    refine ⟨h1, fun key' hp' _ => ?_, .inl ?_⟩
    · rw [storeGet_eq h1 hp', storeGet_eq hwf hp', h2]
    · rw [storeGet_eq h1 hp, storeGet_eq hwf hp, h2]
  · obtain ⟨w1, w2⟩ := storeSet_frame hwf hp hn
    refine ⟨w1, fun key' hp' hne => ?_, .inr ⟨n, ?_⟩⟩
    · rw [storeGet_eq w1 hp', storeGet_eq hwf hp', w2 _ hne]
    · rw [storeGet_of_storeSet hn]

/-- A write of two bytes passes through seven states; the old value and each prefix of the new one
occur. -/
example : ((setStates Demo.hier str!"a/b" [1#8, 2#8] Demo.emptyFs).map fun s =>
      (storeGet Demo.hier str!"a/b" s).1)
    = [.ok none, .ok none, .ok none, .ok (some []), .ok (some []), .ok (some [1#8]),
        .ok (some [1#8, 2#8])] ∧
    ((setStates Demo.hier str!"a/b" [7#8] (storeSet Demo.hier str!"a/b" ([1#8, 2#8], .ok ())
      Demo.emptyFs).2).map fun s => (storeGet Demo.hier str!"a/b" s).1)
    = [.ok (some [1#8, 2#8]), .ok (some [1#8, 2#8]), .ok (some []), .ok (some [7#8])] ∧
    Plain (Demo.hier.loc str!"a/b") := by
  decide +kernel

/-! ## C45 -/

/-- The first state is the one before the call and the last is the one after it. -/
theorem openOrCreateStates_ends (env : Env) (base : Str) (fs d : Fs) :
    (openOrCreateStates env base fs).head? = some fs ∧
    (openOrCreateStates env base fs).getLast?.getD d = (openOrCreate env base fs).2 := by
  have hoc : (openOrCreate env base fs).2 =
      if fs.pathExists (segs (joinPath base entryPointKey)) then fs
      else (createEntryPoint env base fs).2 := by
    unfold openOrCreate
    split
    · have : readEntryPointMetadata env base fs = ((readEntryPointMetadata env base fs).1, fs) := rfl
      rw [this]
      cases (readEntryPointMetadata env base fs).1 <;> rfl
    · rcases createEntryPoint env base fs with ⟨o, fs1⟩
      cases o <;> rfl
  rw [hoc]
  unfold openOrCreateStates createEntryPoint
  split
  · exact ⟨rfl, rfl⟩
  · have hl := mkdirStates_last (r := (segs base).reverse) (fs := fs) d
    simp only [Fs.mkdirAllStates, Fs.mkdirAll]
    generalize Fs.mkdirAllRevStates (segs base).reverse fs = dirs at hl ⊢
    generalize Fs.mkdirAllRev (segs base).reverse fs = mk at hl ⊢
    obtain ⟨o, fs1⟩ := mk
    cases o with
    | err e => exact ⟨rfl, hl⟩
    | panic => exact ⟨rfl, hl⟩
    | ok u =>
      simp only
      cases Fs.openCreate (segs (joinPath base entryPointKey)) fs1 with
      | err e => exact ⟨rfl, hl⟩
      | panic => exact ⟨rfl, hl⟩
      | ok r =>
        obtain ⟨l, fs2⟩ := r
        refine ⟨rfl, ?_⟩
        have := fun old => writeStates_last (fs := fs2) (l := l) (old := old)
          (new := env.json.print EntryPointMetadata.default.toJson)
          (pre := fs :: (dirs ++ [fs2])) d
        simp only [List.cons_append, List.append_assoc, List.nil_append] at this
        rw [this]
        rfl

/-- The states of a creation that is not refused: no entry point yet, or a prefix of its document. -/
theorem openOrCreateStates_cases {env : Env} {base : Str} {fs s : Fs} (hwf : fs.WF)
    (hb : Plain (segs base)) (hnone : fs.get (segs base ++ [str!"zarr.json"]) = none)
    (hw : Writable fs (segs base ++ [str!"zarr.json"]))
    (hs : s ∈ openOrCreateStates env base fs) :
    s.WF ∧ ((s.get (segs base ++ [str!"zarr.json"]) = none ∧
        Writable s (segs base ++ [str!"zarr.json"])) ∨
      ∃ n, n ≤ (env.json.print EntryPointMetadata.default.toJson).length ∧
        s.get (segs base ++ [str!"zarr.json"])
        = some (.file ((env.json.print EntryPointMetadata.default.toJson).take n))) := by
  have hp : Plain (segs base ++ [str!"zarr.json"]) := hb.append (by decide)
  have hpre : ∀ q, q <+: segs base → ¬ segs base ++ [str!"zarr.json"] <+: q := by
    intro q hq h
    have h1 := hq.length_le
    have h2 := h.length_le
    simp at h2; omega
  have hspec : ∀ (q : Loc) (g : Fs), q <+: segs base → (∀ l, g.get l = Fs.mkdirSpec fs q l) →
      g.get (segs base ++ [str!"zarr.json"]) = none ∧ Writable g (segs base ++ [str!"zarr.json"]) := by
    intro q g hq hg
    have h0 : g.get (segs base ++ [str!"zarr.json"]) = none := by
      rw [hg, Fs.mkdirSpec, if_neg (fun hc => hpre q hq hc.1), hnone]
    refine ⟨h0, fun l hl hne b hf => ?_, by rw [h0]; simp⟩
    rw [hg, Fs.mkdirSpec] at hf
    by_cases hc : l <+: q ∧ fs.get l = none
    · rw [if_pos hc] at hf; simp at hf
    · rw [if_neg hc] at hf; exact hw.1 l hl hne b hf
  have hdir : fs.dirable (segs base) := by
    intro l hl
    refine hw.1 l (hl.trans (List.prefix_append _ _)) ?_
    intro e; have := hl.length_le; rw [e] at this; simp at this; omega
  have hdirs : s ∈ fs :: Fs.mkdirAllStates (segs base) fs → s.WF ∧
      (s.get (segs base ++ [str!"zarr.json"]) = none ∧ Writable s (segs base ++ [str!"zarr.json"])) := by
    intro hm
    rcases List.mem_cons.mp hm with rfl | hm
    · exact ⟨hwf, hnone, hw⟩
    · obtain ⟨h1, q, h2, _, h3⟩ := mkdirStates_spec hwf hb hm
      exact ⟨h1, hspec q s h2 h3⟩
  obtain ⟨fs1, hm, hwf1, hget1⟩ := (Fs.mkdirAll_spec hwf (segs base) hb).1 hdir
  have hd1 : fs1.get (segs base) = some .dir := by
    rw [hget1, Fs.mkdirSpec]
    by_cases hn : fs.get (segs base) = none
    · simp [hn]
    · rw [if_neg (by simp [hn])]
      cases hg : fs.get (segs base) with
      | none => exact absurd hg hn
      | some n =>
        cases n with
        | dir => rfl
        | file b => exact absurd hg (hdir _ (List.prefix_refl _) b)
  obtain ⟨hn1, _⟩ := hspec _ fs1 (List.prefix_refl _) hget1
  have hex : fs.pathExists (segs (joinPath base entryPointKey)) = false := by
    simp [Fs.pathExists, segs_entryPoint, Fs.node_plain hwf hp, hnone]
  have ho := openCreate_plain hwf1 hp hd1
  rw [hn1] at ho
  simp only at ho
  unfold openOrCreateStates at hs
  rw [if_neg (by simp [hex])] at hs
  simp only [hm, segs_entryPoint, ho, Fs.get_put, if_true] at hs
  rw [List.mem_cons, List.mem_append, List.mem_cons] at hs
  rcases hs with hs | hs | hs | hs
  · obtain ⟨h1, h2⟩ := hdirs (by simp [hs]); exact ⟨h1, .inl h2⟩
  · obtain ⟨h1, h2⟩ := hdirs (by simp [hs]); exact ⟨h1, .inl h2⟩
  · subst hs
    refine ⟨hwf1.put_file hd1 (by rw [hn1]; simp), .inr ⟨0, Nat.zero_le _, ?_⟩⟩
    simp [Fs.get_put]
  · obtain ⟨n, hn, rfl⟩ := mem_writeStates hs
    refine ⟨hwf1.put_put hd1 (by rw [hn1]; simp), .inr ⟨n, hn, ?_⟩⟩
    simp [Fs.get_put]

/-- **C45, the part that holds.** Whatever the point at which `open_or_create` was interrupted, a
later one succeeds, unless the entry point file was left with a proper prefix of its document. -/
theorem C45_partial {env : Env} (hj : env.json.Lawful) {base : Str} {fs s : Fs} (hwf : fs.WF)
    (hb : Plain (segs base)) (hnone : fs.get (segs base ++ [str!"zarr.json"]) = none)
    (hw : Writable fs (segs base ++ [str!"zarr.json"]))
    (hv : Compatible env EntryPointMetadata.default)
    (hs : s ∈ openOrCreateStates env base fs) :
    (openOrCreate env base s).1 = .ok ⟨base, EntryPointMetadata.default⟩ ∨
    ∃ n, n < (env.json.print EntryPointMetadata.default.toJson).length ∧
      s.content (segs base ++ [str!"zarr.json"])
        = some ((env.json.print EntryPointMetadata.default.toJson).take n) := by
  obtain ⟨h1, h2 | ⟨n, hn, h2⟩⟩ := openOrCreateStates_cases hwf hb hnone hw hs
  · obtain ⟨fs', ho, _⟩ := (C44 hj h1 hb).2.1 h2.1 h2.2 hv
    left; rw [ho]
  · by_cases hlt : n < (env.json.print EntryPointMetadata.default.toJson).length
    · exact .inr ⟨n, hlt, Fs.content_eq_some.mpr h2⟩
    · left
      rw [List.take_of_length_le (by omega)] at h2
      rw [((C44 hj h1 hb).2.2 (by rw [h2]; simp)).1]
      exact ((C44 hj h1 hb).1 _).mpr ⟨_, _, Fs.content_eq_some.mpr h2,
        hj.raw_print _ (entryDefault_canon _), entryDefault_doc,
        by simp [EntryPointMetadata.default], hv, rfl⟩

/-- **C45 fails.** Every creation passes through a state, between creating the file and writing to
it, from which `open_or_create` and `open` fail from then on. -/
theorem C45_violated {env : Env} (hj : env.json.Lawful) {base : Str} {fs : Fs} (hwf : fs.WF)
    (hb : Plain (segs base)) (hnone : fs.get (segs base ++ [str!"zarr.json"]) = none)
    (hw : Writable fs (segs base ++ [str!"zarr.json"])) :
    ∃ s ∈ openOrCreateStates env base fs,
      (∀ h, (openOrCreate env base s).1 ≠ .ok h) ∧
      (openOrCreate env base s).2 = s ∧ ∀ h, (openHier env base s).1 ≠ .ok h := by
  have hp : Plain (segs base ++ [str!"zarr.json"]) := hb.append (by decide)
  have hdir : fs.dirable (segs base) := by
    intro l hl
    refine hw.1 l (hl.trans (List.prefix_append _ _)) ?_
    intro e; have := hl.length_le; rw [e] at this; simp at this; omega
  obtain ⟨fs1, hm, hwf1, hget1⟩ := (Fs.mkdirAll_spec hwf (segs base) hb).1 hdir
  have hd1 : fs1.get (segs base) = some .dir := by
    rw [hget1, Fs.mkdirSpec]
    by_cases hn : fs.get (segs base) = none
    · simp [hn]
    · rw [if_neg (by simp [hn])]
      cases hg : fs.get (segs base) with
      | none => exact absurd hg hn
      | some n =>
        cases n with
        | dir => rfl
        | file b => exact absurd hg (hdir _ (List.prefix_refl _) b)
  have hn1 : fs1.get (segs base ++ [str!"zarr.json"]) = none := by
    rw [hget1, Fs.mkdirSpec, if_neg, hnone]
    rintro ⟨hpre, _⟩
    have := hpre.length_le; simp at this; omega
  have hex : fs.pathExists (segs (joinPath base entryPointKey)) = false := by
    simp [Fs.pathExists, segs_entryPoint, Fs.node_plain hwf hp, hnone]
  have ho := openCreate_plain hwf1 hp hd1
  rw [hn1] at ho
  simp only at ho
  have hmem : fs1.put (segs base ++ [str!"zarr.json"]) (.file []) ∈ openOrCreateStates env base fs := by
    unfold openOrCreateStates
    rw [if_neg (by simp [hex])]
    simp [hm, segs_entryPoint, ho]
  have hwf2 : (fs1.put (segs base ++ [str!"zarr.json"]) (.file [])).WF :=
    hwf1.put_file hd1 (by rw [hn1]; simp)
  have hfile : (fs1.put (segs base ++ [str!"zarr.json"]) (.file [])).get
      (segs base ++ [str!"zarr.json"]) = some (.file []) := by simp [Fs.get_put]
  generalize fs1.put (segs base ++ [str!"zarr.json"]) (.file []) = s at hmem hwf2 hfile
  obtain ⟨c1, _, c3⟩ := C44 hj hwf2 hb
  obtain ⟨d1, d2⟩ := c3 (by rw [hfile]; simp)
  have hno : ∀ h, (openHier env base s).1 ≠ .ok h := by
    intro h hh
    obtain ⟨b, j, hc, hpj, _⟩ := (c1 h).mp hh
    rw [Fs.content_eq_some.mpr hfile] at hc
    simp only [Option.some.injEq] at hc
    subst hc
    rw [hj.raw_nil] at hpj
    simp at hpj
  refine ⟨s, hmem, fun h hh => hno h ?_, d2, hno⟩
  rw [← d1, hh]

set_option maxRecDepth 20000 in
/-- The states of a creation in an empty filesystem and what a later `open_or_create` gives: the
third is the one with the empty file. -/
example : ((openOrCreateStates Demo.envV str!"/h" Demo.emptyFs).take 3).map
      (fun s => (openOrCreate Demo.envV str!"/h" s).1)
    = [.ok Demo.hier, .ok Demo.hier, .err .json] := by
  decide +kernel

end Zarr
