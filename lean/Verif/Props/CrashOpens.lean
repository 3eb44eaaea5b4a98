import Verif.Model.Opens
import Verif.Lemmas.Solo
import Verif.Props.Crash
/-!
# Crash states and runs of `open_or_create`

The states in which a crash inside `open_or_create` can leave the filesystem (`openOrCreateStates`) are those that a
call made alone goes through, one system call after the other (`Model/Opens.lean`). -/

namespace Zarr

namespace Opens

section
variable {env : Env} {base : Str} {pc pc1 : Pc} {fs fs1 s : Fs}

/-- The call, alone, reaches a point where the filesystem is `s`. -/
inductive Left (env : Env) (base : Str) : Pc → Fs → Fs → Prop
  | here (pc : Pc) (fs : Fs) : Left env base pc fs fs
  | step {pc pc1 : Pc} {fs fs1 s : Fs} : pc.next env base [] fs = some (pc1, fs1) → Left env base pc1 fs1 s →
      Left env base pc fs s

theorem left_step (hn : pc.next env base [] fs = some (pc1, fs1)) :
    Left env base pc fs s ↔ s = fs ∨ Left env base pc1 fs1 s := by
  constructor
  · intro hl
    cases hl with
    | here => exact .inl rfl
    | step h1 h2 =>
      rw [hn] at h1
      cases h1
      exact .inr h2
  · rintro (rfl | hl)
    · exact .here ..
    · exact .step hn hl

theorem left_self : Left env base pc fs fs := .here ..

theorem left_same (hn : pc.next env base [] fs = some (pc1, fs)) :
    Left env base pc fs s ↔ Left env base pc1 fs s := by
  rw [left_step hn]
  constructor
  · rintro (rfl | hl)
    · exact left_self
    · exact hl
  · exact .inr

theorem left_done (r : Outcome Hier) : Left env base (.done r) fs s ↔ s = fs := by
  constructor
  · intro hl
    cases hl with
    | here => rfl
    | step h1 _ => simp [Pc.next] at h1
  · rintro rfl; exact left_self

theorem left_read {l : Loc} : ∀ (d : Nat) (acc : Bytes), (Threads.content fs l).length - acc.length = d →
    (Left env base (.read l acc) fs s ↔ s = fs) := by
  intro d
  induction d with
  | zero =>
    intro acc hd
    cases hg : fs.get l with
    | none => rw [left_same (pc1 := .done (.err .notFound)) (by simp [Pc.next, hg]), left_done]
    | some n =>
      cases n with
      | dir => rw [left_same (pc1 := .done (.err .isADirectory)) (by simp [Pc.next, hg]), left_done]
      | file c =>
        have hc : Threads.content fs l = c := by simp [Threads.content, hg]
        rw [hc] at hd
        have : c[acc.length]? = none := List.getElem?_eq_none (by omega)
        rw [left_same (pc1 := .done (parseEntryPoint env acc >>= fun e => checkVersion env ⟨base, e⟩))
          (by simp [Pc.next, hg, this]), left_done]
  | succ d ih =>
    intro acc hd
    cases hg : fs.get l with
    | none => simp [Threads.content, hg] at hd
    | some n =>
      cases n with
      | dir => simp [Threads.content, hg] at hd
      | file c =>
        have hc : Threads.content fs l = c := by simp [Threads.content, hg]
        have hd' := hd
        rw [hc] at hd'
        have hlt : acc.length < c.length := by omega
        rw [left_same (pc1 := .read l (acc ++ [c[acc.length]])) (by simp [Pc.next, hg, List.getElem?_eq_getElem hlt])]
        refine ih _ ?_
        rw [List.length_append, List.length_singleton]
        omega

theorem left_readOpen : Left env base .readOpen fs s ↔ s = fs := by
  cases hl : fs.locate (segs (joinPath base entryPointKey)) with
  | err e => rw [left_same (pc1 := .done (.err e)) (by simp [Pc.next, hl]), left_done]
  | panic => rw [left_same (pc1 := .done .panic) (by simp [Pc.next, hl]), left_done]
  | ok l =>
    cases hg : fs.get l with
    | none => rw [left_same (pc1 := .done (.err .notFound)) (by simp [Pc.next, hl, hg]), left_done]
    | some n =>
      rw [left_same (pc1 := .read l []) (by simp [Pc.next, hl, hg])]
      exact left_read _ _ rfl

/-- Bytes written over the beginning of a file. -/
theorem left_write {l : Loc} {old : Bytes} (d : Nat) :
    ∀ n fs, (document env).length - n = d → n ≤ (document env).length →
    fs.get l = some (.file ((document env).take n ++ old.drop n)) →
    (Left env base (.write l n) fs s ↔
      ∃ i, n ≤ i ∧ i ≤ (document env).length ∧ s = fs.put l (.file ((document env).take i ++ old.drop i))) := by
  induction d with
  | zero =>
    intro n fs hd hn hg
    have hn' : n = (document env).length := by omega
    have hno : (document env)[n]? = none := List.getElem?_eq_none (by omega)
    rw [left_same (pc1 := .done (checkVersion env ⟨base, EntryPointMetadata.default⟩)) (by simp [Pc.next, hno]), left_done]
    constructor
    · rintro rfl; exact ⟨n, Nat.le_refl _, hn, (Fs.put_of_get hg).symm⟩
    · rintro ⟨i, h1, h2, rfl⟩
      rw [show i = n by omega, Fs.put_of_get hg]
  | succ d ih =>
    intro n fs hd hn hg
    have hlt : n < (document env).length := by omega
    have hlen : ((document env).take n).length = n := by simp; omega
    have hnx : (Pc.write l n).next env base [] fs =
        some (.write l (n + 1), fs.put l (.file ((document env).take (n + 1) ++ old.drop (n + 1)))) := by
      simp only [Pc.next, List.getElem?_eq_getElem hlt, hg]
      rw [List.take_left' hlen, List.drop_append, List.drop_eq_nil_of_le (by omega), hlen, List.nil_append, List.drop_drop,
        show n + (n + 1 - n) = n + 1 by omega, ← List.take_append_getElem hlt, List.append_assoc]
      rfl
    rw [left_step hnx, ih (n + 1) _ (by omega) (by omega) (by rw [Fs.get_put]; simp)]
    simp only [Fs.put_put]
    constructor
    · rintro (rfl | ⟨i, h1, h2, rfl⟩)
      · exact ⟨n, Nat.le_refl _, by omega, (Fs.put_of_get hg).symm⟩
      · exact ⟨i, by omega, h2, rfl⟩
    · rintro ⟨i, h1, h2, rfl⟩
      by_cases hi : i = n
      · subst hi; exact .inl (Fs.put_of_get hg)
      · exact .inr ⟨i, by omega, h2, rfl⟩

theorem left_mkdir (n : Nat) (hn : n ≤ (segs base).length) :
    Left env base (.mkdirDown n) fs s ↔ s = fs ∨ s ∈ Fs.mkdirAllRevStates ((segs base).take n).reverse fs ∨
      Left env base (match (Fs.mkdirAllRev ((segs base).take n).reverse fs).1 with
      | .ok () => .mkdirUp (n + 1)
      | .err e => .done (.err e)
      | .panic => .done .panic) (Fs.mkdirAllRev ((segs base).take n).reverse fs).2 s := by
  have hself : ∀ {pc : Pc} {fs : Fs}, Left env base pc fs s ↔ s = fs ∨ Left env base pc fs s :=
    fun {pc fs} => ⟨.inr, fun h => h.elim (fun e => e ▸ left_self) id⟩
  generalize hp : segs base = p at hn ⊢
  induction n generalizing fs with
  | zero =>
    simp only [List.take_zero, List.reverse_nil, Fs.mkdirAllRev, Fs.mkdirAllRevStates, List.not_mem_nil, false_or]
    rw [left_same (pc1 := if fs.isDir [] then .mkdirUp 1 else .done (.err .notFound))
      (by simp [Pc.next])]
    by_cases hd : fs.isDir []
    · simp only [if_pos hd]; exact hself
    · simp only [if_neg hd]; exact hself
  | succ n ih =>
    have e : (p.take (n + 1)).reverse = p[n] :: (p.take n).reverse := by
      rw [← List.take_append_getElem (by omega : n < p.length), List.reverse_append]; rfl
    have e' : (p[n] :: (p.take n).reverse).reverse = p.take (n + 1) := by rw [← e, List.reverse_reverse]
    have hnx : (Pc.mkdirDown (n + 1)).next env base [] fs = match fs.mkdir (p.take (n + 1)) with
      | .ok fs' => some (.mkdirUp (n + 1 + 1), fs')
      | .err e => some (if e = .notFound then .mkdirDown n else .mkdirDir (n + 1) e, fs)
      | .panic => some (.done .panic, fs) := by rw [← hp]; rfl
    have hdir : ∀ e fs, (Pc.mkdirDir (n + 1) e).next env base [] fs =
      some (if fs.isDir (p.take (n + 1)) then .mkdirUp (n + 1 + 1) else .done (.err e), fs) := fun _ _ => by rw [← hp]; rfl
    have hup : ∀ fs, (Pc.mkdirUp (n + 1)).next env base [] fs = match fs.mkdir (p.take (n + 1)) with
      | .ok fs' => some (.mkdirUp (n + 1 + 1), fs')
      | .err e => some (.mkdirDir (n + 1) e, fs)
      | .panic => some (.done .panic, fs) := by
      intro fs
      simp only [Pc.next]
      rw [hp, if_neg (by omega)]
      cases fs.mkdir (p.take (n + 1)) <;> rfl
    rw [e]
    simp only [Fs.mkdirAllRev, Fs.mkdirAllRevStates, e']
    cases hm : fs.mkdir (p.take (n + 1)) with
    | ok fs' =>
      rw [hm] at hnx
      rw [left_step hnx]
      simp only [List.mem_singleton]
      rw [← hself]
    | panic =>
      rw [hm] at hnx
      rw [left_same hnx]
      simp only [List.not_mem_nil, false_or]
      exact hself
    | err er =>
      rw [hm] at hnx
      simp only at hnx ⊢
      by_cases hnf : er = .notFound
      · rw [if_pos hnf] at hnx ⊢
        refine (left_same hnx).trans ((ih (fs := fs) (Nat.le_of_succ_le hn)).trans ?_)
        cases hr : Fs.mkdirAllRev (p.take n).reverse fs with
        | mk o fs1 =>
          cases o with
          | err e1 => simp [hnf]
          | panic => simp [hnf]
          | ok u =>
            simp only [hnf, if_pos, List.mem_append]
            have hup1 := hup fs1
            cases hm1 : fs1.mkdir (p.take (n + 1)) with
            | ok fs2 =>
              rw [hm1] at hup1
              rw [left_step hup1]
              have h1 : s = fs1 → s = fs ∨ s ∈ Fs.mkdirAllRevStates (p.take n).reverse fs := by
                rintro rfl
                have := mkdirStates_last (r := (p.take n).reverse) (fs := fs) fs
                rw [hr] at this
                have hm := List.getLast?_eq_some_getLast (l := fs :: Fs.mkdirAllRevStates (p.take n).reverse fs) (by simp)
                rw [hm] at this
                simp only [Option.getD_some] at this
                have := List.getLast_mem (l := fs :: Fs.mkdirAllRevStates (p.take n).reverse fs) (by simp)
                simp_all
              simp only [List.mem_singleton]
              constructor
              · rintro (a | a | a | a)
                · exact .inl a
                · exact .inr (.inl (.inl a))
                · rcases h1 a with b | b
                  · exact .inl b
                  · exact .inr (.inl (.inl b))
                · exact .inr (.inr a)
              · rintro (a | (a | a) | a)
                · exact .inl a
                · exact .inr (.inl a)
                · subst a; exact .inr (.inr (.inr left_self))
                · exact .inr (.inr (.inr a))
            | panic => rw [hm1] at hup1; rw [left_same hup1]; simp
            | err e1 =>
              rw [hm1] at hup1
              rw [left_same hup1]
              have hd1 := hdir e1 fs1
              by_cases hd : fs1.isDir (p.take (n + 1))
              · simp only [if_pos hd] at hd1 ⊢; rw [left_same hd1]; simp
              · simp only [if_neg hd] at hd1 ⊢; rw [left_same hd1]; simp
      · rw [if_neg hnf] at hnx ⊢
        rw [left_same hnx]
        have hd1 := hdir er fs
        simp only [if_neg hnf, List.not_mem_nil, false_or]
        by_cases hd : fs.isDir (p.take (n + 1))
        · simp only [if_pos hd] at hd1 ⊢; rw [left_same hd1]; exact hself
        · simp only [if_neg hd] at hd1 ⊢; rw [left_same hd1]; exact hself

theorem openCreate_file {p : List Str} {l : Loc} {fs2 : Fs} (ho : Fs.openCreate p fs = .ok (l, fs2)) :
    ∃ b, fs2.get l = some (.file b) := by
  unfold Fs.openCreate at ho
  cases hl : fs.locate p with
  | err e => rw [hl] at ho; cases ho
  | panic => rw [hl] at ho; cases ho
  | ok l' =>
    rw [hl] at ho
    simp only at ho
    cases hg : fs.get l' with
    | none => rw [hg] at ho; cases ho; exact ⟨[], by rw [Fs.get_put]; simp⟩
    | some n =>
      rw [hg] at ho
      cases n with
      | dir => cases ho
      | file b => cases ho; exact ⟨b, hg⟩

theorem left_begin : Left env base (begin true) fs s ↔ s ∈ openOrCreateStates env base fs := by
  unfold openOrCreateStates
  by_cases hex : fs.pathExists (segs (joinPath base entryPointKey)) = true
  · rw [if_pos hex, List.mem_singleton]
    rw [show begin true = .check from rfl, left_same (pc1 := .readOpen) (by simp [Pc.next, hex]), left_readOpen]
  · rw [if_neg hex]
    rw [show begin true = .check from rfl, left_same (pc1 := .mkdirDown (segs base).length) (by simp [Pc.next, hex]),
      left_mkdir _ (Nat.le_refl _), List.take_length]
    have hlast := mkdirStates_last (r := (segs base).reverse) (fs := fs) fs
    unfold Fs.mkdirAll Fs.mkdirAllStates
    cases hr : Fs.mkdirAllRev (segs base).reverse fs with
    | mk o fs1 =>
      rw [hr] at hlast
      have h1 : s = fs1 → s = fs ∨ s ∈ Fs.mkdirAllRevStates (segs base).reverse fs := by
        rintro rfl
        have hm := List.getLast?_eq_some_getLast (l := fs :: Fs.mkdirAllRevStates (segs base).reverse fs) (by simp)
        rw [hm] at hlast
        simp only [Option.getD_some] at hlast
        have := List.getLast_mem (l := fs :: Fs.mkdirAllRevStates (segs base).reverse fs) (by simp)
        simp_all
      have h2 : (s = fs ∨ s ∈ Fs.mkdirAllRevStates (segs base).reverse fs ∨ s = fs1) ↔
          s = fs ∨ s ∈ Fs.mkdirAllRevStates (segs base).reverse fs := by
        constructor
        · rintro (a | a | a)
          · exact .inl a
          · exact .inr a
          · exact h1 a
        · rintro (a | a)
          · exact .inl a
          · exact .inr (.inl a)
      cases o with
      | err e => simp only [left_done, List.mem_cons, h2]
      | panic => simp only [left_done, List.mem_cons, h2]
      | ok u =>
        simp only
        rw [left_same (pc1 := .openNew) (by simp only [Pc.next]; rw [if_pos (by omega)])]
        cases ho : Fs.openCreate (segs (joinPath base entryPointKey)) fs1 with
        | err e =>
          rw [left_same (pc1 := .done (.err e)) (by simp [Pc.next, ho])]
          simp only [left_done, List.mem_cons, h2]
        | panic =>
          rw [left_same (pc1 := .done .panic) (by simp [Pc.next, ho])]
          simp only [left_done, List.mem_cons, h2]
        | ok r =>
          obtain ⟨l, fs2⟩ := r
          obtain ⟨old, hold⟩ := openCreate_file ho
          rw [left_step (pc1 := .lock l) (fs1 := fs2) (by simp [Pc.next, ho]),
            left_same (pc1 := .write l 0) (by simp [Pc.next]),
            left_write (old := old) _ 0 fs2 rfl (Nat.zero_le _) (by simpa using hold)]
          simp only [hold, List.mem_cons, List.mem_append, writeStates, List.mem_map, List.mem_range, document, Nat.zero_le,
            true_and]
          constructor
          · rintro (a | a | a | ⟨i, a, b⟩)
            · exact .inl a
            · exact .inr (.inl a)
            · exact (h1 a).imp id .inl
            · exact .inr (.inr (.inr ⟨i, by omega, b.symm⟩))
          · rintro (a | a | a | ⟨i, a, b⟩)
            · exact .inl a
            · exact .inr (.inl a)
            · refine .inr (.inr (.inr ⟨0, Nat.zero_le _, ?_⟩))
              rw [a]
              exact (Fs.put_of_get (by simpa using hold)).symm
            · exact .inr (.inr (.inr ⟨i, by omega, b.symm⟩))

theorem next_lone : ∀ {r : Pc × Fs}, pc.next env base [pc] fs = some r ↔ pc.next env base [] fs = some r := by
  intro r
  cases pc with
  | lock l => simp [Pc.next, Pc.holds]
  | _ => exact Iff.rfl

end

end Opens

/-- **C45** (the states). A crash inside `open_or_create` can leave the filesystem exactly as it is at some point of the run of
the call, system call by system call. -/
theorem C45_runs (env : Env) (base : Str) (fs s : Fs) : s ∈ openOrCreateStates env base fs ↔
    ∃ ts s', (Opens.Sys.initial fs [true]).run env base ts = some s' ∧ s'.fs = s := by
  rw [← Opens.left_begin]
  show _ ↔ ∃ ts s', (⟨fs, [Opens.begin true]⟩ : Opens.Sys).run env base ts = some s' ∧ s'.fs = s
  generalize Opens.begin true = pc
  constructor
  · intro hl
    induction hl with
    | here pc fs => exact ⟨[], _, rfl, rfl⟩
    | step hn _ ih =>
      obtain ⟨ts, s', h1, h2⟩ := ih
      refine ⟨0 :: ts, s', ?_, h2⟩
      rw [Opens.Sys.run, Opens.Sys.advance]
      simp only [List.getElem?_cons_zero, Option.bind_some, Opens.next_lone.mpr hn, Option.map_some, List.set_cons_zero]
      exact h1
  · rintro ⟨ts, s', hr, rfl⟩
    induction ts generalizing pc fs with
    | nil => cases hr; exact Opens.left_self
    | cons t ts ih =>
      rw [Opens.Sys.run] at hr
      obtain ⟨s1, h1, h2⟩ := Option.bind_eq_some_iff.mp hr
      unfold Opens.Sys.advance at h1
      obtain ⟨pc0, h3, h4⟩ := Option.bind_eq_some_iff.mp h1
      rw [Option.map_eq_some_iff] at h4
      obtain ⟨r, h5, rfl⟩ := h4
      cases t with
      | succ t => simp at h3
      | zero =>
        simp only [List.getElem?_cons_zero, Option.some.injEq] at h3
        subst h3
        rw [Opens.left_step (Opens.next_lone.mp h5)]
        exact .inr (ih _ _ h2)

/-- Four system calls into `open_or_create` the entry point file exists and is empty. -/
example : ∃ s ∈ openOrCreateStates Demo.envJ str!"/x" Demo.emptyFs,
    s.content (segs (joinPath str!"/x" entryPointKey)) = some [] := by
  have h : (((Opens.Sys.initial Demo.emptyFs [true]).run Demo.envJ str!"/x" (List.replicate 4 0)).map fun s =>
      decide (s.fs.content (segs (joinPath str!"/x" entryPointKey)) = some [])) = some true := by decide +kernel
  obtain ⟨s', h1, h2⟩ := Option.map_eq_some_iff.mp h
  exact ⟨s'.fs, (C45_runs _ _ _ _).mpr ⟨_, s', h1, rfl⟩, of_decide_eq_true h2⟩

end Zarr
