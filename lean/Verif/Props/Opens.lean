import Verif.Model.Opens
import Verif.Props.Open
/-!
# Several processes open or create one hierarchy: C98

Claim: calls of `open_or_create` for the same new hierarchy, made at the same time, all succeed. It is false: a
call that finds the file another call has just created reads it without a lock, before it is written. -/

namespace Zarr.Opens

open Spec

/-- What is assumed at the beginning: there is no hierarchy and nothing in the way of one. -/
structure Spec.New (base : Str) (fs : Fs) : Prop where
  wf : fs.WF
  plain : Plain (segs base)
  dirs : ∀ l, l <+: segs base → ∀ b, fs.get l ≠ some (.file b)
  absent : fs.get (segs base ++ [str!"zarr.json"]) = none

variable {env : Env} {base : Str} {fs0 fs fs' : Fs}

/-- The place of the entry point. -/
def place (base : Str) : Loc := segs base ++ [str!"zarr.json"]

/-- At least `n` bytes of the document have been written. -/
def AtLeast (env : Env) (base : Str) (fs : Fs) (n : Nat) : Prop :=
  ∃ c, fs.get (place base) = some (.file ((document env).take c)) ∧ n ≤ c ∧ c ≤ (document env).length

/-- What the filesystem is like at any time. -/
structure Good (env : Env) (base : Str) (fs0 fs : Fs) : Prop where
  wf : fs.WF
  plain : Plain (segs base)
  same : ∀ l, ¬ l <+: segs base → l ≠ place base → fs.get l = fs0.get l
  dirs : ∀ l, l <+: segs base → fs.get l = none ∨ fs.get l = some .dir
  file : fs.get (place base) = none ∨ AtLeast env base fs 0

/-- Directories and written bytes stay. -/
structure Mono (env : Env) (base : Str) (fs fs' : Fs) : Prop where
  dirs : ∀ l, fs.get l = some .dir → fs'.get l = some .dir
  bytes : ∀ n, AtLeast env base fs n → AtLeast env base fs' n

/-- The possible results of a call. -/
def ResultOk (env : Env) (base : Str) (fs : Fs) (create : Bool) (r : Outcome Hier) : Prop :=
  (r = checkVersion env ⟨base, EntryPointMetadata.default⟩ ∧ AtLeast env base fs (document env).length) ∨
  (AtLeast env base fs 0 ∧ ∃ n, n < (document env).length ∧
    r = (parseEntryPoint env ((document env).take n) >>= fun e => checkVersion env ⟨base, e⟩)) ∨
  (create = false ∧ r = .err .notFound)

/-- What is known when a call is at a step. -/
def PcOk (env : Env) (base : Str) (fs : Fs) (create : Bool) : Pc → Prop
  | .check => create = true
  | .mkdirDown n => n ≤ (segs base).length ∧ create = true
  | .mkdirDir n _ => n ≤ (segs base).length ∧ fs.get ((segs base).take n) = some .dir ∧ create = true
  | .mkdirUp n => 1 ≤ n ∧ n ≤ (segs base).length + 1 ∧ fs.get ((segs base).take (n - 1)) = some .dir ∧ create = true
  | .openNew => fs.get (segs base) = some .dir ∧ create = true
  | .lock l => l = place base ∧ AtLeast env base fs 0 ∧ create = true
  | .write l n => l = place base ∧ AtLeast env base fs n ∧ create = true
  | .readOpen => create = true → AtLeast env base fs 0
  | .read l acc => l = place base ∧ acc = (document env).take acc.length ∧ AtLeast env base fs acc.length
  | .done r => ResultOk env base fs create r

theorem ResultOk.mono {create : Bool} {r : Outcome Hier} (h : ResultOk env base fs create r)
    (hm : Mono env base fs fs') : ResultOk env base fs' create r := by
  rcases h with ⟨h1, h2⟩ | ⟨h1, h2⟩ | h
  · exact .inl ⟨h1, hm.bytes _ h2⟩
  · exact .inr (.inl ⟨hm.bytes _ h1, h2⟩)
  · exact .inr (.inr h)

theorem PcOk.mono {create : Bool} {pc : Pc} (h : PcOk env base fs create pc) (hm : Mono env base fs fs') :
    PcOk env base fs' create pc := by
  cases pc with
  | check => exact h
  | mkdirDown n => exact h
  | mkdirDir n e => exact ⟨h.1, hm.dirs _ h.2.1, h.2.2⟩
  | mkdirUp n => exact ⟨h.1, h.2.1, hm.dirs _ h.2.2.1, h.2.2.2⟩
  | openNew => exact ⟨hm.dirs _ h.1, h.2⟩
  | lock l => exact ⟨h.1, hm.bytes _ h.2.1, h.2.2⟩
  | write l n => exact ⟨h.1, hm.bytes _ h.2.1, h.2.2⟩
  | readOpen => exact fun hc => hm.bytes _ (h hc)
  | read l acc => exact ⟨h.1, h.2.1, hm.bytes _ h.2.2⟩
  | done r => exact ResultOk.mono h hm

theorem Mono.refl : Mono env base fs fs := ⟨fun _ h => h, fun _ h => h⟩

theorem Good.plain' (g : Good env base fs0 fs) : Plain (place base) := g.plain.append (by decide)

theorem place_not_prefix : ¬ place base <+: segs base := fun h => by
  have := h.length_le
  simp only [place, List.length_append, List.length_singleton] at this
  omega

/-- Making a directory on the way. -/
theorem Good.mkdir (g : Good env base fs0 fs) {l : Loc} {s : Str} (hl : l ++ [s] <+: segs base)
    (hd : fs.get l = some .dir) (hn : fs.get (l ++ [s]) = none) :
    Good env base fs0 (fs.put (l ++ [s]) .dir) ∧ Mono env base fs (fs.put (l ++ [s]) .dir) ∧
      (fs.put (l ++ [s]) .dir).get (l ++ [s]) = some .dir ∧
      (fs.put (l ++ [s]) .dir).get (place base) = fs.get (place base) := by
  have hne : place base ≠ l ++ [s] := fun e => place_not_prefix (e ▸ hl)
  have hp : (fs.put (l ++ [s]) .dir).get (place base) = fs.get (place base) := by rw [Fs.get_put, if_neg hne]
  refine ⟨⟨g.wf.put_dir hd, g.plain, fun k hk hk' => ?_, fun k hk => ?_, ?_⟩, ⟨fun k hk => ?_, fun n hn' => ?_⟩,
    by rw [Fs.get_put, if_pos rfl], hp⟩
  · rw [Fs.get_put, if_neg (fun e : k = l ++ [s] => hk (e ▸ hl))]; exact g.same k hk hk'
  · rw [Fs.get_put]; split
    · exact .inr rfl
    · exact g.dirs k hk
  · unfold AtLeast; rw [hp]; exact g.file
  · rw [Fs.get_put]; split
    · rfl
    · exact hk
  · unfold AtLeast at hn' ⊢; rw [hp]; exact hn'

/-- Writing at the place. -/
theorem Good.put (g : Good env base fs0 fs) (hd : fs.get (segs base) = some .dir) {c : Nat}
    (hc : c ≤ (document env).length) (hmono : ∀ n, AtLeast env base fs n → n ≤ c) :
    Good env base fs0 (fs.put (place base) (.file ((document env).take c))) ∧
      Mono env base fs (fs.put (place base) (.file ((document env).take c))) ∧
      AtLeast env base (fs.put (place base) (.file ((document env).take c))) c := by
  have hnd : fs.get (place base) ≠ some .dir := by
    rcases g.file with h | ⟨_, h, _⟩ <;> rw [h] <;> simp
  have hp : (fs.put (place base) (.file ((document env).take c))).get (place base) =
      some (.file ((document env).take c)) := by rw [Fs.get_put, if_pos rfl]
  refine ⟨⟨g.wf.put_file hd hnd, g.plain, fun k hk hk' => ?_, fun k hk => ?_, .inr ⟨c, hp, Nat.zero_le _, hc⟩⟩,
    ⟨fun k hk => ?_, fun n hn' => ⟨c, hp, hmono n hn', hc⟩⟩, ⟨c, hp, Nat.le_refl _, hc⟩⟩
  · rw [Fs.get_put, if_neg hk']; exact g.same k hk hk'
  · rw [Fs.get_put, if_neg (fun e : k = place base => place_not_prefix (e ▸ hk))]; exact g.dirs k hk
  · rw [Fs.get_put, if_neg (fun e : k = place base => hnd (e ▸ hk))]; exact hk

/-- `mkdir` of a directory on the way to the base. -/
theorem Good.mkdir_cases (g : Good env base fs0 fs) {n : Nat} (h0 : n ≠ 0) (hn : n ≤ (segs base).length) :
    (∃ f, fs.mkdir ((segs base).take n) = .ok f ∧ Good env base fs0 f ∧ Mono env base fs f ∧
      f.get ((segs base).take n) = some .dir ∧ f.get (place base) = fs.get (place base)) ∨
    (fs.mkdir ((segs base).take n) = .err .alreadyExists ∧ fs.get ((segs base).take n) = some .dir) ∨
    (fs.mkdir ((segs base).take n) = .err .notFound ∧ fs.get ((segs base).take (n - 1)) = none) := by
  obtain ⟨m, rfl⟩ : ∃ m, n = m + 1 := ⟨n - 1, by omega⟩
  have hm : m < (segs base).length := by omega
  have e : (segs base).take (m + 1) = (segs base).take m ++ [(segs base)[m]] := by
    rw [List.take_add_one, List.getElem?_eq_getElem hm]; rfl
  have hpre : (segs base).take m ++ [(segs base)[m]] <+: segs base := e ▸ List.take_prefix _ _
  have hpl : Plain ((segs base).take m ++ [(segs base)[m]]) := fun h => g.plain (hpre.subset h)
  have hdir := g.dirs _ hpre
  have hpar := g.dirs _ (List.take_prefix m (segs base))
  simp only [Nat.add_sub_cancel]
  rw [e, Fs.mkdir_plain g.wf hpl]
  rcases hpar with hpar | hpar
  · right; right
    rw [hpar]
    have : fs.locate ((segs base).take m ++ [(segs base)[m]]) = .err .notFound := by
      rcases Fs.locate_err g.wf hpl (by rw [hpar]; simp) with ⟨h, _⟩ | ⟨_, h⟩
      · exact h
      · refine absurd (fun l hl b hb => ?_) h
        rcases g.dirs l (hl.trans (List.take_prefix _ _)) with h | h <;> rw [h] at hb <;> simp at hb
    rw [this]
    exact ⟨rfl, rfl⟩
  · rw [hpar]
    rcases hdir with hd | hd
    · left
      rw [hd]
      obtain ⟨h1, h2, h3, h4⟩ := g.mkdir hpre hpar hd
      exact ⟨_, rfl, h1, h2, h3, h4⟩
    · right; left
      rw [hd]
      exact ⟨rfl, rfl⟩

/-- Looking for the file. -/
theorem Good.exists_iff (g : Good env base fs0 fs) :
    fs.pathExists (segs (joinPath base entryPointKey)) = true ↔ AtLeast env base fs 0 := by
  have : fs.pathExists (segs (joinPath base entryPointKey)) = (fs.get (place base)).isSome := by
    simp only [Fs.pathExists, segs_entryPoint]
    exact congrArg Option.isSome (Fs.node_plain g.wf g.plain')
  rw [this]
  constructor
  · intro h
    rcases g.file with h' | h'
    · rw [h'] at h; simp at h
    · exact h'
  · rintro ⟨c, h, _⟩; rw [h]; rfl

theorem parse_document (hj : env.json.Lawful) :
    parseEntryPoint env (document env) = .ok EntryPointMetadata.default :=
  parseEntryPoint_iff.mpr ⟨_, hj.raw_print _ (entryDefault_canon _), entryDefault_doc,
    by simp [EntryPointMetadata.default]⟩

/-- The call has created the file or is about to write it. -/
def Pc.busy : Pc → Bool
  | .lock _ => true
  | .write _ _ => true
  | _ => false

/-- An upper bound of the number of steps a call still makes. -/
def rank (env : Env) (base : Str) : Pc → Nat
  | .check => (document env).length + 3 * (segs base).length + 9
  | .mkdirDown n => (document env).length + 2 * (segs base).length + 8 + n
  | .mkdirDir n _ => (document env).length + 2 * ((segs base).length - n) + 5
  | .mkdirUp n => (document env).length + 2 * ((segs base).length + 1 - n) + 4
  | .openNew => (document env).length + 3
  | .lock _ => (document env).length + 2
  | .write _ n => (document env).length - n + 1
  | .readOpen => (document env).length + 2
  | .read _ acc => (document env).length - acc.length + 1
  | .done _ => 0

/-- A step of a call. -/
theorem step (hj : env.json.Lawful) {create : Bool} {pc pc' : Pc} {pcs : List Pc} (g : Good env base fs0 fs)
    (hpc : PcOk env base fs create pc) (h : pc.next env base pcs fs = some (pc', fs')) :
    Good env base fs0 fs' ∧ Mono env base fs fs' ∧ PcOk env base fs' create pc' ∧
    (fs'.get (place base) = fs.get (place base) ∨ pc'.busy = true) ∧
    (pc.busy = true → pc'.busy = true ∨ pc' = .done (checkVersion env ⟨base, EntryPointMetadata.default⟩) ∧
      AtLeast env base fs' (document env).length) ∧
    (AtLeast env base fs (document env).length → ∀ r, pc' = .done r →
      r = checkVersion env ⟨base, EntryPointMetadata.default⟩) ∧
    rank env base pc' < rank env base pc := by
  cases pc with
  | check =>
    simp only [Pc.next, Option.some.injEq, Prod.mk.injEq] at h
    obtain ⟨rfl, rfl⟩ := h
    split
    · rename_i he
      exact ⟨g, .refl, fun _ => g.exists_iff.mp he, .inl rfl, by simp [Pc.busy], by simp, by simp only [rank]; omega⟩
    · exact ⟨g, .refl, ⟨Nat.le_refl _, hpc⟩, .inl rfl, by simp [Pc.busy], by simp, by simp only [rank]; omega⟩
  | mkdirDown n =>
    unfold Pc.next at h
    dsimp only at h
    by_cases h0 : n = 0
    · rw [if_pos h0] at h
      have hroot : fs.isDir [] = true := (Fs.isDir_iff g.wf (by simp [Plain])).mpr g.wf.root
      simp only [Option.some.injEq, Prod.mk.injEq, hroot, if_true] at h
      obtain ⟨rfl, rfl⟩ := h
      exact ⟨g, .refl, ⟨Nat.le_refl _, by omega, by simpa using g.wf.root, hpc.2⟩, .inl rfl, by simp [Pc.busy], by simp, by simp only [rank]; omega⟩
    · rw [if_neg h0] at h
      rcases g.mkdir_cases h0 hpc.1 with ⟨f, e, h1, h2, h3, h4⟩ | ⟨e, h1⟩ | ⟨e, h1⟩ <;> rw [e] at h <;>
        simp only [Option.some.injEq, Prod.mk.injEq, if_true, reduceCtorEq, if_false] at h <;> obtain ⟨rfl, rfl⟩ := h
      · exact ⟨h1, h2, ⟨by omega, by have := hpc.1; omega, by simpa using h3, hpc.2⟩, .inl h4, by simp [Pc.busy], by simp, by simp only [rank]; omega⟩
      · exact ⟨g, .refl, ⟨hpc.1, h1, hpc.2⟩, .inl rfl, by simp [Pc.busy], by simp, by simp only [rank]; omega⟩
      · exact ⟨g, .refl, ⟨by have := hpc.1; omega, hpc.2⟩, .inl rfl, by simp [Pc.busy], by simp, by simp only [rank]; omega⟩
  | mkdirDir n e =>
    have hd : fs.isDir ((segs base).take n) = true :=
      (Fs.isDir_iff g.wf fun hx => g.plain ((List.take_prefix _ _).subset hx)).mpr hpc.2.1
    simp only [Pc.next, hd, if_true, Option.some.injEq, Prod.mk.injEq] at h
    obtain ⟨rfl, rfl⟩ := h
    exact ⟨g, .refl, ⟨by omega, by have := hpc.1; omega, by simpa using hpc.2.1, hpc.2.2⟩, .inl rfl, by simp [Pc.busy], by simp,
      by have := hpc.1; simp only [rank]; omega⟩
  | mkdirUp n =>
    obtain ⟨h1, h2, h3, h4⟩ := hpc
    unfold Pc.next at h
    dsimp only at h
    by_cases h0 : (segs base).length < n
    · rw [if_pos h0] at h
      simp only [Option.some.injEq, Prod.mk.injEq] at h
      obtain ⟨rfl, rfl⟩ := h
      have : n - 1 = (segs base).length := by omega
      rw [this, List.take_length] at h3
      exact ⟨g, .refl, ⟨h3, h4⟩, .inl rfl, by simp [Pc.busy], by simp, by simp only [rank]; omega⟩
    · rw [if_neg h0] at h
      rcases g.mkdir_cases (by omega) (by omega : n ≤ _) with ⟨f, e, i1, i2, i3, i4⟩ | ⟨e, i1⟩ | ⟨e, i1⟩
      · rw [e] at h
        simp only [Option.some.injEq, Prod.mk.injEq] at h
        obtain ⟨rfl, rfl⟩ := h
        exact ⟨i1, i2, ⟨by omega, by omega, by simpa using i3, h4⟩, .inl i4, by simp [Pc.busy], by simp, by simp only [rank]; omega⟩
      · rw [e] at h
        simp only [Option.some.injEq, Prod.mk.injEq] at h
        obtain ⟨rfl, rfl⟩ := h
        exact ⟨g, .refl, ⟨by omega, i1, h4⟩, .inl rfl, by simp [Pc.busy], by simp, by simp only [rank]; omega⟩
      · rw [h3] at i1; simp at i1
  | openNew =>
    unfold Pc.next at h
    dsimp only at h
    rw [segs_entryPoint, openCreate_plain g.wf g.plain' hpc.1] at h
    rcases g.file with hf | ⟨c, hf, hc⟩
    · rw [show fs.get (segs base ++ [str!"zarr.json"]) = none from hf] at h
      simp only [Option.some.injEq, Prod.mk.injEq] at h
      obtain ⟨rfl, rfl⟩ := h
      obtain ⟨i1, i2, i3⟩ := g.put hpc.1 (c := 0) (Nat.zero_le _) (by
        rintro n ⟨c, hc, _⟩; rw [hf] at hc; simp at hc)
      rw [List.take_zero] at i1 i2 i3
      exact ⟨i1, i2, ⟨rfl, i3, hpc.2⟩, .inr rfl, by simp [Pc.busy], by simp, by simp only [rank]; omega⟩
    · rw [show fs.get (segs base ++ [str!"zarr.json"]) = _ from hf] at h
      simp only [Option.some.injEq, Prod.mk.injEq] at h
      obtain ⟨rfl, rfl⟩ := h
      exact ⟨g, .refl, ⟨rfl, ⟨c, hf, Nat.zero_le _, hc.2⟩, hpc.2⟩, .inl rfl, by simp [Pc.busy], by simp, by simp only [rank]; omega⟩
  | lock l =>
    unfold Pc.next at h
    dsimp only at h
    split at h
    · simp at h
    · simp only [Option.some.injEq, Prod.mk.injEq] at h
      obtain ⟨rfl, rfl⟩ := h
      exact ⟨g, .refl, hpc, .inl rfl, fun _ => .inl rfl, by simp, by simp only [rank]; omega⟩
  | write l n =>
    obtain ⟨rfl, ⟨c, hf, hnc, hcl⟩, hcr⟩ := hpc
    unfold Pc.next at h
    dsimp only at h
    cases hb : (document env)[n]? with
    | none =>
      rw [hb] at h
      simp only [Option.some.injEq, Prod.mk.injEq] at h
      obtain ⟨rfl, rfl⟩ := h
      have := List.getElem?_eq_none_iff.mp hb
      exact ⟨g, .refl, .inl ⟨rfl, c, hf, by omega, hcl⟩, .inl rfl, fun _ => .inr ⟨rfl, c, hf, by omega, hcl⟩,
        fun _ r hr => (Pc.done.inj hr).symm, by simp only [rank]; omega⟩
    | some b =>
      rw [hb, hf] at h
      simp only [Option.some.injEq, Prod.mk.injEq] at h
      obtain ⟨rfl, rfl⟩ := h
      obtain ⟨hlt, hbe⟩ := List.getElem?_eq_some_iff.mp hb
      have e : ((document env).take c).take n ++ b :: ((document env).take c).drop (n + 1) =
          (document env).take (max c (n + 1)) := by
        rw [List.take_take, Nat.min_eq_left hnc, List.drop_take]
        have : (document env).take n ++ b :: ((document env).drop (n + 1)).take (c - (n + 1)) =
            (document env).take (n + 1) ++ ((document env).drop (n + 1)).take (c - (n + 1)) := by
          rw [List.take_add_one, hb]; simp
        rw [this, ← List.take_add]
        congr 1
        omega
      rw [e]
      have hd : fs.get (segs base) = some .dir := g.wf.parent _ _ _ hf
      obtain ⟨i1, i2, i3⟩ := g.put hd (c := max c (n + 1)) (by omega) (by
        rintro k ⟨c', hc', hk, hk'⟩
        rw [hf] at hc'
        simp only [Option.some.injEq, Node.file.injEq] at hc'
        have := congrArg List.length hc'
        simp only [List.length_take] at this
        omega)
      obtain ⟨c', j1, j2, j3⟩ := i3
      exact ⟨i1, i2, ⟨rfl, ⟨c', j1, by omega, j3⟩, hcr⟩, .inr rfl, fun _ => .inl rfl, by simp,
        by simp only [rank]; omega⟩
  | readOpen =>
    unfold Pc.next at h
    dsimp only at h
    rw [show segs (joinPath base entryPointKey) = place base from segs_entryPoint _] at h
    by_cases ha : AtLeast env base fs 0
    · obtain ⟨c, hf, hc⟩ := ha
      rw [Fs.locate_of_get g.wf g.plain' hf] at h
      simp only [hf, Option.isSome_some, if_true, Option.some.injEq, Prod.mk.injEq] at h
      obtain ⟨rfl, rfl⟩ := h
      exact ⟨g, .refl, ⟨rfl, by simp, ⟨c, hf, hc⟩⟩, .inl rfl, by simp [Pc.busy], by simp, by simp [rank]⟩
    · have hcr : create = false := by
        cases create with
        | true => exact absurd (hpc rfl) ha
        | false => rfl
      have hn : fs.get (place base) = none := g.file.resolve_right ha
      have : pc' = .done (.err .notFound) ∧ fs' = fs := by
        by_cases hd : fs.get (segs base) = some .dir
        · rw [show fs.locate (place base) = .ok (place base) from Fs.locate_plain_dir g.wf g.plain' hd] at h
          simp [hn] at h
          exact ⟨h.1.symm, h.2.symm⟩
        · rcases Fs.locate_err g.wf g.plain' hd with ⟨e, _⟩ | ⟨_, e⟩
          · rw [show fs.locate (place base) = _ from e] at h
            simp at h
            exact ⟨h.1.symm, h.2.symm⟩
          · refine absurd (fun l hl b hb => ?_) e
            rcases g.dirs l hl with h | h <;> rw [h] at hb <;> simp at hb
      obtain ⟨rfl, rfl⟩ := this
      exact ⟨g, .refl, .inr (.inr ⟨hcr, rfl⟩), .inl rfl, by simp [Pc.busy],
        fun hfull => absurd ⟨hfull.choose, hfull.choose_spec.1, Nat.zero_le _, hfull.choose_spec.2.2⟩ ha,
        by simp only [rank]; omega⟩
  | read l acc =>
    obtain ⟨rfl, hacc, ⟨c, hf, hle, hcl⟩⟩ := hpc
    unfold Pc.next at h
    dsimp only at h
    rw [hf] at h
    simp only at h
    cases hb : ((document env).take c)[acc.length]? with
    | some b =>
      rw [hb] at h
      simp only [Option.some.injEq, Prod.mk.injEq] at h
      obtain ⟨rfl, rfl⟩ := h
      rw [List.getElem?_take] at hb
      split at hb
      · rename_i hlt
        refine ⟨g, .refl, ⟨rfl, ?_, ⟨c, hf, by simp; omega, hcl⟩⟩, .inl rfl, by simp [Pc.busy], by simp,
          by simp only [rank, List.length_append, List.length_singleton]; omega⟩
        simp only [List.length_append, List.length_singleton, List.take_add_one, hb]
        rw [← hacc]; rfl
      · simp at hb
    | none =>
      rw [hb] at h
      simp only [Option.some.injEq, Prod.mk.injEq] at h
      obtain ⟨rfl, rfl⟩ := h
      have hlen := List.getElem?_eq_none_iff.mp hb
      simp only [List.length_take] at hlen
      by_cases hall : acc.length < (document env).length
      · refine ⟨g, .refl, .inr (.inl ⟨⟨c, hf, Nat.zero_le _, hcl⟩, acc.length, hall, by rw [← hacc]⟩), .inl rfl,
          by simp [Pc.busy], fun ⟨c', hf', h1, h2⟩ => ?_, by simp only [rank]; omega⟩
        rw [hf] at hf'
        simp only [Option.some.injEq, Node.file.injEq] at hf'
        have := congrArg List.length hf'
        simp only [List.length_take] at this
        omega
      · have hl : acc.length = (document env).length := by omega
        have hacc' := hacc
        rw [hl, List.take_length] at hacc'
        have hr : (parseEntryPoint env acc >>= fun e => checkVersion env ⟨base, e⟩) =
            checkVersion env ⟨base, EntryPointMetadata.default⟩ := by
          rw [hacc', parse_document hj]; rfl
        exact ⟨g, .refl, .inl ⟨hr, c, hf, by omega, hcl⟩, .inl rfl, by simp [Pc.busy],
          fun _ r h => (Pc.done.inj h).symm.trans hr, by simp only [rank]; omega⟩
  | done r => simp [Pc.next] at h

/-! ## All calls -/

/-- What is true at any time. -/
structure Inv (env : Env) (base : Str) (fs0 : Fs) (calls : List Bool) (s : Sys) : Prop where
  good : Good env base fs0 s.fs
  length : s.pcs.length = calls.length
  pcs : ∀ (t : Nat) c pc, calls[t]? = some c → s.pcs[t]? = some pc → PcOk env base s.fs c pc
  made : s.fs.get (place base) = none ∨ ∃ (t : Nat) (pc : Pc), s.pcs[t]? = some pc ∧ (pc.busy = true ∨ calls[t]? = some true ∧
    pc = .done (checkVersion env ⟨base, EntryPointMetadata.default⟩) ∧ AtLeast env base s.fs (document env).length)

theorem Inv.initial (hn : Spec.New base fs0) (calls : List Bool) :
    Inv env base fs0 calls (Sys.initial fs0 calls) where
  good := ⟨hn.wf, hn.plain, fun _ _ _ => rfl, fun l hl => by
    show fs0.get l = none ∨ fs0.get l = some .dir
    cases h : fs0.get l with
    | none => exact .inl rfl
    | some n =>
      cases n with
      | dir => exact .inr rfl
      | file b => exact absurd h (hn.dirs l hl b), .inl hn.absent⟩
  length := by simp [Sys.initial]
  pcs t c pc hc hpc := by
    simp only [Sys.initial, List.getElem?_map, hc, Option.map_some, Option.some.injEq] at hpc
    subst hpc
    cases c <;> simp [begin, PcOk]
  made := .inl hn.absent

theorem advance_split {s s' : Sys} {t : Nat} (h : s.advance env base t = some s') :
    ∃ pc r, s.pcs[t]? = some pc ∧ pc.next env base s.pcs s.fs = some r ∧ s' = ⟨r.2, s.pcs.set t r.1⟩ := by
  simp only [Sys.advance, Option.bind_eq_some_iff, Option.map_eq_some_iff] at h
  obtain ⟨pc, h1, r, h2, rfl⟩ := h
  exact ⟨pc, r, h1, h2, rfl⟩

/-- The number of steps all calls still make. -/
def total (env : Env) (base : Str) (s : Sys) : Nat := (s.pcs.map (rank env base)).sum

theorem sum_set {l : List Pc} {f : Pc → Nat} {t : Nat} {a b : Pc} (h : l[t]? = some a) (hlt : f b < f a) :
    ((l.set t b).map f).sum < (l.map f).sum := by
  induction l generalizing t with
  | nil => simp at h
  | cons x l ih =>
    cases t with
    | zero =>
      simp only [List.getElem?_cons_zero, Option.some.injEq] at h
      subst h
      simp only [List.set_cons_zero, List.map_cons, List.sum_cons]
      omega
    | succ t =>
      have := ih (t := t) (by simpa using h)
      simp only [List.set_cons_succ, List.map_cons, List.sum_cons]
      omega

theorem Inv.advance (hj : env.json.Lawful) {calls : List Bool} {s s' : Sys} {t : Nat}
    (i : Inv env base fs0 calls s) (h : s.advance env base t = some s') :
    Inv env base fs0 calls s' ∧ Mono env base s.fs s'.fs ∧ total env base s' < total env base s ∧
    (AtLeast env base s.fs (document env).length → ∀ u r, s.result u = none → s'.result u = some r →
      r = checkVersion env ⟨base, EntryPointMetadata.default⟩) := by
  obtain ⟨pc, ⟨pc', fs'⟩, h1, h2, rfl⟩ := advance_split h
  have hlt : t < s.pcs.length := (List.getElem?_eq_some_iff.mp h1).1
  have hlt' : t < calls.length := by rw [← i.length]; exact hlt
  have hc : calls[t]? = some calls[t] := List.getElem?_eq_getElem hlt'
  obtain ⟨g, hm, hok, hplace, hbusy, hfull, hrank⟩ := step hj i.good (i.pcs t _ pc hc h1) h2
  have hset : (s.pcs.set t pc')[t]? = some pc' := by simp [hlt]
  refine ⟨⟨g, by simpa using i.length, fun u c q hcu hq => ?_, ?_⟩, hm, sum_set h1 hrank, fun hf u r hu hr => ?_⟩
  · by_cases e : t = u
    · subst e
      simp only at hq
      rw [hset] at hq
      rw [hc] at hcu
      cases hq; cases hcu
      exact hok
    · simp only [List.getElem?_set_ne e] at hq
      exact (i.pcs u c q hcu hq).mono hm
  · by_cases hb : pc'.busy = true
    · exact .inr ⟨t, pc', hset, .inl hb⟩
    · have hp := hplace.resolve_right hb
      rcases i.made with hn | ⟨u, q, hq, hq'⟩
      · exact .inl (hp.trans hn)
      · by_cases e : t = u
        · subst e
          rw [h1] at hq
          cases hq
          rcases hq' with hq' | ⟨_, rfl, _⟩
          · refine .inr ⟨t, pc', hset, .inr ?_⟩
            obtain ⟨e1, e2⟩ := (hbusy hq').resolve_left hb
            refine ⟨?_, e1, e2⟩
            have := i.pcs t _ pc hc h1
            rw [hc]
            cases pc <;> simp [Pc.busy] at hq' <;> simp [PcOk] at this <;> simp [this]
          · simp [Pc.next] at h2
        · refine .inr ⟨u, q, by simp only [List.getElem?_set_ne e]; exact hq, ?_⟩
          rcases hq' with hq' | ⟨e0, e1, e2⟩
          · exact .inl hq'
          · exact .inr ⟨e0, e1, hm.bytes _ e2⟩
  · by_cases e : t = u
    · subst e
      simp only [Sys.result, hset] at hr
      cases pc' with
      | done r' =>
        simp only [Option.some.injEq] at hr
        subst hr
        exact hfull hf _ rfl
      | _ => simp at hr
    · simp only [Sys.result, List.getElem?_set_ne e] at hr hu
      rw [hr] at hu
      simp at hu

theorem Inv.run (hj : env.json.Lawful) {calls : List Bool} {s s' : Sys} {ts : List Nat}
    (i : Inv env base fs0 calls s) (h : s.run env base ts = some s') :
    Inv env base fs0 calls s' ∧ Mono env base s.fs s'.fs ∧ total env base s' + ts.length ≤ total env base s ∧
    (AtLeast env base s.fs (document env).length → ∀ u r, s.result u = none → s'.result u = some r →
      r = checkVersion env ⟨base, EntryPointMetadata.default⟩) := by
  induction ts generalizing s with
  | nil =>
    cases Option.some.inj h
    exact ⟨i, .refl, by simp, fun _ u r h1 h2 => by rw [h1] at h2; simp at h2⟩
  | cons t ts ih =>
    simp only [Sys.run, Option.bind_eq_some_iff] at h
    obtain ⟨s1, h1, h2⟩ := h
    obtain ⟨i1, m1, t1, f1⟩ := i.advance hj h1
    obtain ⟨i2, m2, t2, f2⟩ := ih i1 h2
    refine ⟨i2, ⟨fun l hl => m2.dirs l (m1.dirs l hl), fun n hn => m2.bytes n (m1.bytes n hn)⟩,
      by simp only [List.length_cons]; omega, fun hf u r hu hr => ?_⟩
    cases hr1 : s1.result u with
    | none => exact f2 (m1.bytes _ hf) u r hr1 hr
    | some r1 =>
      have := f1 hf u r1 hu hr1
      subst this
      have keep : ∀ (ts : List Nat) (a b : Sys) (x : Outcome Hier), a.run env base ts = some b →
          a.result u = some x → b.result u = some x := by
        intro ts
        induction ts with
        | nil => intro a b x h hx; cases Option.some.inj h; exact hx
        | cons t ts ih =>
          intro a b x h hx
          simp only [Sys.run, Option.bind_eq_some_iff] at h
          obtain ⟨c, hc, hb⟩ := h
          refine ih c b x hb ?_
          obtain ⟨pc, r, e1, e2, rfl⟩ := advance_split hc
          by_cases e : t = u
          · subst e
            simp only [Sys.result, e1] at hx
            cases pc <;> simp at hx
            simp [Pc.next] at e2
          · simp only [Sys.result, List.getElem?_set_ne e]
            exact hx
      have := keep ts s1 s' _ h2 hr1
      rw [hr] at this
      exact Option.some.inj this

/-- A call that has not returned can go on, or waits for one that can. -/
theorem progress {s : Sys} {t : Nat} (ht : t < s.pcs.length) (hr : s.result t = none) :
    ∃ u s', s.advance env base u = some s' := by
  by_cases hw : ∃ (u : Nat) (l : List Str) (n : Nat), s.pcs[u]? = some (Pc.write l n)
  · obtain ⟨u, l, n, hu⟩ := hw
    refine ⟨u, ?_⟩
    unfold Sys.advance
    rw [hu, Option.bind_some]
    have : (Pc.next env base s.pcs s.fs (.write l n)).isSome := by
      unfold Pc.next
      dsimp only
      split <;> rfl
    obtain ⟨r, hr⟩ := Option.isSome_iff_exists.mp this
    rw [hr]
    exact ⟨_, rfl⟩
  · refine ⟨t, ?_⟩
    have hpc : s.pcs[t]? = some s.pcs[t] := List.getElem?_eq_getElem ht
    unfold Sys.advance
    rw [hpc, Option.bind_some]
    have : (Pc.next env base s.pcs s.fs s.pcs[t]).isSome := by
      simp only [Sys.result, hpc] at hr
      cases hq : s.pcs[t] with
      | done r => rw [hq] at hr; simp at hr
      | lock l =>
        unfold Pc.next
        dsimp only
        rw [if_neg, Option.isSome_some]
        intro ha
        obtain ⟨q, hq, hq'⟩ := List.any_eq_true.mp ha
        obtain ⟨u, hu⟩ := List.mem_iff_getElem?.mp hq
        cases q with
        | write l' n => exact hw ⟨u, l', n, hu⟩
        | _ => simp [Pc.holds] at hq'
      | check => rfl
      | mkdirDir n e => rfl
      | mkdirDown n => unfold Pc.next; dsimp only; split <;> (try rfl); split <;> rfl
      | mkdirUp n => unfold Pc.next; dsimp only; split <;> (try rfl); split <;> rfl
      | openNew => unfold Pc.next; dsimp only; split <;> rfl
      | readOpen => unfold Pc.next; dsimp only; split <;> rfl
      | write l n => unfold Pc.next; dsimp only; split <;> rfl
      | read l acc => unfold Pc.next; dsimp only; split <;> (try rfl); split <;> rfl
    obtain ⟨r, hr⟩ := Option.isSome_iff_exists.mp this
    rw [hr]
    exact ⟨_, rfl⟩

theorem AtLeast.full (h : AtLeast env base fs (document env).length) :
    fs.get (place base) = some (.file (document env)) := by
  obtain ⟨c, h1, h2, h3⟩ := h
  rw [h1, List.take_of_length_le h2]

/-- **C98, the part that holds.** Any number of calls of `open_or_create` (`true`) and `open` (`false`) are made
for a base path where there is no hierarchy, their system calls happening in any order. At any time
(1) nothing else has been changed than that directories on the way to the base path may have been made and that
`zarr.json` may hold a beginning of the document; (2) a call that has returned has returned the hierarchy, and then
the document is complete, or an error of reading an incomplete document, and there is a file then, or, if it is
`open`, `NotFound`; (3) from when the document is complete on it stays complete and calls that return, return the
hierarchy; (4) some call can take a step unless all have returned, and there is a bound for the number of steps;
(5) when all have returned and one was `open_or_create`, then one of those has returned the hierarchy and `open`
succeeds from then on.

Missing: that calls of `open_or_create` do not fail. -/
theorem C98_partial (env : Env) (base : Str) (fs : Fs) (calls : List Bool) (hj : env.json.Lawful)
    (hv : Spec.Compatible env EntryPointMetadata.default) (hn : Spec.New base fs)
    (hpre : ∀ n, n < (env.json.print EntryPointMetadata.default.toJson).length →
      env.json.raw ((env.json.print EntryPointMetadata.default.toJson).take n) = none) :
    let loc := segs base ++ [str!"zarr.json"]
    let doc := env.json.print EntryPointMetadata.default.toJson
    let hier : Hier := ⟨base, EntryPointMetadata.default⟩
    ∃ bound, ∀ sched s, (Sys.initial fs calls).run env base sched = some s →
      ((∀ l, ¬ l <+: segs base → l ≠ loc → s.fs.get l = fs.get l) ∧
        (∀ l, l <+: segs base → s.fs.get l = none ∨ s.fs.get l = some .dir) ∧
        (s.fs.get loc = none ∨ ∃ n, s.fs.get loc = some (.file (doc.take n)))) ∧
      (∀ (t : Nat) create r, calls[t]? = some create → s.result t = some r →
        (r = .ok hier ∧ s.fs.get loc = some (.file doc)) ∨ (r = .err .json ∧ s.fs.get loc ≠ none) ∨
        (create = false ∧ r = .err .notFound)) ∧
      (s.fs.get loc = some (.file doc) → ∀ sched' s', s.run env base sched' = some s' →
        s'.fs.get loc = some (.file doc) ∧
        ∀ t r, s.result t = none → s'.result t = some r → r = .ok hier) ∧
      (sched.length ≤ bound ∧ ((∀ t, t < calls.length → (s.result t).isSome) ∨
        ∃ t s', s.advance env base t = some s')) ∧
      ((∀ t, t < calls.length → (s.result t).isSome) → true ∈ calls →
        (∃ t : Nat, calls[t]? = some true ∧ s.result t = some (.ok hier)) ∧
        s.fs.get loc = some (.file doc) ∧ openHier env base s.fs = (.ok hier, s.fs)) := by
  intro loc doc hier
  have hcv : checkVersion env ⟨base, EntryPointMetadata.default⟩ = .ok hier := by
    have hv' : env.versionReq (lastPiece EntryPointMetadata.default.zarrFormat) = some true := compatible_iff.mp hv
    simp [checkVersion, getVersion, hv', hier]
  refine ⟨total env base (Sys.initial fs calls), fun sched s hs => ?_⟩
  obtain ⟨i, -, hlen, -⟩ := (Inv.initial hn calls).run hj hs
  have hres : ∀ (t : Nat) create r, calls[t]? = some create → s.result t = some r →
      ResultOk env base s.fs create r := by
    intro t create r hc hr
    unfold Sys.result at hr
    cases hp : s.pcs[t]? with
    | none => rw [hp] at hr; simp at hr
    | some pc =>
      rw [hp] at hr
      have := i.pcs t create pc hc hp
      cases pc with
      | done r' =>
        simp only [Option.some.injEq] at hr
        subst hr
        exact this
      | _ => simp at hr
  refine ⟨⟨i.good.same, i.good.dirs, ?_⟩, ?_, ?_, ⟨by omega, ?_⟩, ?_⟩
  · rcases i.good.file with h | ⟨c, h, _⟩
    · exact .inl h
    · exact .inr ⟨c, h⟩
  · intro t create r hc hr
    rcases hres t create r hc hr with ⟨h1, h2⟩ | ⟨⟨c, h1, _⟩, n, hlt, h2⟩ | h
    · exact .inl ⟨h1.trans hcv, h2.full⟩
    · refine .inr (.inl ⟨?_, ?_⟩)
      · rw [h2]
        simp only [parseEntryPoint]
        rw [show env.json.raw ((document env).take n) = none from hpre n hlt]
        rfl
      · show s.fs.get (place base) ≠ none
        rw [h1]; simp
    · exact .inr (.inr h)
  · intro hf sched' s' hs'
    have hfull : AtLeast env base s.fs (document env).length :=
      ⟨_, by rw [List.take_length]; exact hf, Nat.le_refl _, Nat.le_refl _⟩
    obtain ⟨i', m, -, hlate⟩ := i.run hj hs'
    exact ⟨(m.bytes _ hfull).full, fun t r h1 h2 => (hlate hfull t r h1 h2).trans hcv⟩
  · by_cases ha : ∀ t, t < calls.length → (s.result t).isSome
    · exact .inl ha
    · simp only [Classical.not_forall, Option.not_isSome_iff_eq_none, exists_prop] at ha
      obtain ⟨t, ht, hr⟩ := ha
      exact .inr (progress (by rw [i.length]; exact ht) hr)
  · intro ha hc
    obtain ⟨t, ht⟩ := List.mem_iff_getElem?.mp hc
    have hlt : t < calls.length := (List.getElem?_eq_some_iff.mp ht).1
    have hex : s.fs.get (place base) ≠ none := by
      obtain ⟨r, hr⟩ := Option.isSome_iff_exists.mp (ha t hlt)
      rcases hres t true r ht hr with ⟨_, c, h, _⟩ | ⟨⟨c, h, _⟩, _⟩ | ⟨h, _⟩
      · rw [h]; simp
      · rw [h]; simp
      · simp at h
    obtain ⟨u, pc, hu, hb⟩ := i.made.resolve_left hex
    have hult : u < calls.length := by rw [← i.length]; exact (List.getElem?_eq_some_iff.mp hu).1
    have hb := hb.resolve_left fun hb => by
      have := ha u hult
      unfold Sys.result at this
      rw [hu] at this
      cases pc <;> simp [Pc.busy] at hb <;> simp at this
    obtain ⟨h1, rfl, h3⟩ := hb
    refine ⟨⟨u, h1, by unfold Sys.result; rw [hu]; simp [hcv]⟩, h3.full, ?_⟩
    have := ((C44 hj i.good.wf hn.plain).1 hier).mpr ⟨_, _, Fs.content_eq_some.mpr h3.full,
      hj.raw_print _ (entryDefault_canon _), entryDefault_doc, by simp [hier, EntryPointMetadata.default], hv, rfl⟩
    have hro : (openHier env base s.fs).2 = s.fs := by
      simp only [openHier, M.bind_apply]
      have e : readEntryPointMetadata env base s.fs = ((readEntryPointMetadata env base s.fs).1, s.fs) := rfl
      rw [e]
      cases (readEntryPointMetadata env base s.fs).1 <;> rfl
    exact Prod.ext this hro

/-! ## A call that fails -/

/-- Two calls of `open_or_create`: the first makes the directory and the file, then the second runs, then the
first writes the document. -/
def demoSchedule : List Nat := [0, 0, 0, 0, 1, 1, 1]

/-- There is nothing yet. -/
theorem demoNew : Spec.New str!"/h" Demo.emptyFs where
  wf := Demo.emptyFs_wf
  plain := by decide
  dirs l _ b := by
    by_cases h : l = []
    · subst h; simp [Demo.emptyFs, Fs.get, Fs.lookup]
    · simp [Demo.emptyFs, Fs.get, Fs.lookup, Ne.symm h]
  absent := by decide

set_option maxRecDepth 20000 in
/-- **C98 fails.** Of two calls of `open_or_create` for a new hierarchy one can fail: it reads the file that the
other has created but not yet written. -/
theorem C98_violated : ¬ ∀ (env : Env) (base : Str) (fs : Fs) (calls : List Bool), env.json.Lawful →
    Spec.Compatible env EntryPointMetadata.default → Spec.New base fs → (∀ c ∈ calls, c = true) →
    ∀ sched s, (Sys.initial fs calls).run env base sched = some s →
      ∀ t r, s.result t = some r → ∃ h, r = .ok h := by
  intro h
  have hd : ((Sys.initial Demo.emptyFs [true, true]).run Demo.envV str!"/h" demoSchedule).bind (·.result 1)
      = some (.err .json) := by decide +kernel
  obtain ⟨s, h1, h2⟩ := Option.bind_eq_some_iff.mp hd
  obtain ⟨r, hr⟩ := h Demo.envV str!"/h" Demo.emptyFs [true, true] jsonText_lawful
    (compatible_iff.mpr (by decide)) demoNew (by decide) _ s h1 1 _ h2
  simp at hr

set_option maxRecDepth 20000 in
/-- The hypotheses of `C98_partial` hold for the modelled JSON text and a directory with nothing in it, here for
three calls. -/
example : ∃ bound, ∀ sched s, (Sys.initial Demo.emptyFs [true, false, true]).run Demo.envV str!"/h" sched = some s →
    sched.length ≤ bound := by
  obtain ⟨bound, h⟩ := C98_partial Demo.envV str!"/h" Demo.emptyFs [true, false, true] jsonText_lawful
    (compatible_iff.mpr (by decide)) demoNew (by
      have : ∀ n ∈ List.range 175, Demo.envV.json.raw
          ((Demo.envV.json.print EntryPointMetadata.default.toJson).take n) = none := by decide +kernel
      intro n hn
      exact this n (List.mem_range.mpr (by
        have e : (Demo.envV.json.print EntryPointMetadata.default.toJson).length = 175 := by decide +kernel
        omega)))
  exact ⟨bound, fun sched s hs => (h sched s hs).2.2.2.1.1⟩

set_option maxRecDepth 20000 in
/-- A schedule in which both calls return: the second one fails, the first one succeeds, and the document is
complete. -/
example :
    let s := (Sys.initial Demo.emptyFs [true, true]).run Demo.envV str!"/h"
      (demoSchedule ++ List.replicate 177 0)
    s.map (fun s => (s.result 0, s.result 1, s.fs.get [str!"h", str!"zarr.json"]
      == some (.file (Demo.envV.json.print EntryPointMetadata.default.toJson))))
      = some (some (.ok ⟨str!"/h", EntryPointMetadata.default⟩), some (.err .json), true) := by decide +kernel

end Zarr.Opens
