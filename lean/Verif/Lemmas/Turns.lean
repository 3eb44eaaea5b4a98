import Verif.Lemmas.Solo
import Verif.Lemmas.Interfere
/-!
# Threads that take turns at store calls
-/

namespace Zarr.Threads

section
variable {α : Type} {h : Hier} {pc pc1 pc2 : Pc α} {fs fs1 fs2 : Fs}

theorem run_turns (s : Sys α) (a b : List Nat) : s.run h (a ++ b) = (s.run h a).bind fun s' => s'.run h b := by
  induction a generalizing s with
  | nil => rfl
  | cons t a ih =>
    simp only [List.cons_append, Sys.run]
    cases s.advance h t with
    | none => rfl
    | some s' => exact ih s'

/-- A thread need not wait if the others hold no lock. -/
theorem next_quiet {pcs : List (Pc α)} (hq : ∀ p ∈ pcs, p = pc ∨ ∀ l, p.holds l = false) :
    pc.next h pcs fs = pc.next h [] fs := by
  have hx : ∀ l, pc.exclusive l = false → pcs.any (Pc.exclusive l) = false := by
    intro l hl
    rw [List.any_eq_false]
    intro p hp
    rcases hq p hp with rfl | hi
    · simp [hl]
    · intro hx
      have := Pc.holds_of_exclusive hx
      rw [hi] at this
      cases this
  have hh : ∀ l, pc.holds l = false → pcs.any (Pc.holds l) = false := by
    intro l hl
    rw [List.any_eq_false]
    intro p hp
    rcases hq p hp with rfl | hi
    · simp [hl]
    · simp [hi]
  cases pc with
  | getLock l k => simp only [Pc.next, hx l rfl]; rfl
  | setLock l v k => simp only [Pc.next, hh l rfl]; rfl
  | eraLock p l k => simp only [Pc.next, hh l rfl]; rfl
  | prog P => cases P <;> rfl
  | _ => rfl

/-- A thread can go on while the others hold no lock. -/
theorem run_leads (hl : Leads h pc fs pc1 fs1) : ∀ (pcs : List (Pc α)) (i : Nat), pcs[i]? = some pc →
    (∀ j p, j ≠ i → pcs[j]? = some p → ∀ l, p.holds l = false) →
    ∃ ts, (Sys.mk fs pcs).run h ts = some ⟨fs1, pcs.set i pc1⟩ := by
  induction hl with
  | refl pc fs =>
    intro pcs i hi _
    refine ⟨[], ?_⟩
    have : pcs.set i pc = pcs := by
      obtain ⟨hlt, rfl⟩ := List.getElem?_eq_some_iff.mp hi
      exact List.set_getElem_self hlt
    rw [this]; rfl
  | @step pc pc' pc2 fs fs' fs2 hn _ ih =>
    intro pcs i hi hq
    have hlt := (List.getElem?_eq_some_iff.mp hi).1
    obtain ⟨ts, hts⟩ := ih (pcs.set i pc') i (by rw [List.getElem?_set_self hlt]) (fun j p hj hp => by
      rw [List.getElem?_set_ne (fun e => hj e.symm)] at hp
      exact hq j p hj hp)
    refine ⟨i :: ts, ?_⟩
    have ha : (Sys.mk fs pcs).advance h i = some ⟨fs', pcs.set i pc'⟩ := by
      simp only [Sys.advance, hi, Option.bind_some]
      rw [next_quiet (fun p hp => ?_), hn]
      · rfl
      · obtain ⟨j, hj⟩ := List.getElem?_of_mem hp
        by_cases hji : j = i
        · subst hji; rw [hi] at hj; exact .inl (Option.some.inj hj).symm
        · exact .inr (hq j p hji hj)
    rw [Sys.run, ha, Option.bind_some, hts, List.set_set]

/-- A program, alone, runs to its end. -/
theorem leads_run (P : Prog α) : ∀ fs : Fs, Leads h (.prog P) fs (.prog (.done (P.run h fs).1)) (P.run h fs).2 := by
  induction P with
  | done r => exact fun fs => .refl ..
  | «exists» key k ih => exact fun fs => (leads_exists key k).trans (ih _ _)
  | get key k ih => exact fun fs => (leads_get key k).trans (ih _ _)
  | set key v k ih => exact fun fs => (leads_set key v k).trans (ih _ _)
  | erase key k ih => exact fun fs => (leads_erase key k).trans (ih _ _)

/-- Of two threads the first makes some store calls, then the second makes all its calls, then the first goes on. -/
theorem overtaken {A A' B : Prog α} (hA : Leads h (.prog A) fs (.prog A') fs1) :
    ∃ ts s, (Sys.initial fs [A, B]).run h ts = some s ∧ s.fs = (A'.run h (B.run h fs1).2).2 ∧
      s.result 0 = some (A'.run h (B.run h fs1).2).1 ∧ s.result 1 = some (B.run h fs1).1 := by
  obtain ⟨t1, h1⟩ := run_leads hA [.prog A, .prog B] 0 rfl (fun j p hj hp => by
    match j, hj, hp with
    | 1, _, hp => cases hp; exact fun _ => rfl
    | j + 2, _, hp => simp at hp)
  obtain ⟨t2, h2⟩ := run_leads (leads_run (h := h) B fs1) [.prog A', .prog B] 1 rfl (fun j p hj hp => by
    match j, hj, hp with
    | 0, _, hp => cases hp; exact fun _ => rfl
    | j + 2, _, hp => simp at hp)
  obtain ⟨t3, h3⟩ := run_leads (leads_run (h := h) A' (B.run h fs1).2) [.prog A', .prog (.done (B.run h fs1).1)] 0 rfl
    (fun j p hj hp => by
      match j, hj, hp with
      | 1, _, hp => cases hp; exact fun _ => rfl
      | j + 2, _, hp => simp at hp)
  refine ⟨t1 ++ (t2 ++ t3), ⟨(A'.run h (B.run h fs1).2).2,
    [.prog (.done (A'.run h (B.run h fs1).2).1), .prog (.done (B.run h fs1).1)]⟩, ?_, rfl, rfl, rfl⟩
  · rw [run_turns]
    show ((Sys.mk fs [.prog A, .prog B]).run h t1).bind _ = _
    rw [h1, Option.bind_some, run_turns]
    show ((Sys.mk fs1 [.prog A', .prog B]).run h t2).bind _ = _
    rw [h2, Option.bind_some]
    exact h3

/-- `set` first makes the directories. -/
theorem leads_dirs {key : Str} (v : Bytes × Outcome Unit) (k : Outcome Unit → Prog α) (hwf : fs.WF)
    (hp : Plain (h.loc key)) (hw : Writable fs (h.loc key)) :
    ∃ fs1 q s, h.loc key = q ++ [s] ∧ Leads h (.prog (.set key v k)) fs (.setOpen (h.loc key) v k) fs1 ∧ fs1.WF ∧
      fs1.get q = some .dir ∧ fs1.get (h.loc key) = fs.get (h.loc key) := by
  obtain ⟨t, ht, hs⟩ := getPath_loc hp
  have hnil : h.loc key ≠ [] := fun e => hw.2 (e ▸ hwf.root)
  obtain ⟨q, s, hqs⟩ : ∃ q s, h.loc key = q ++ [s] :=
    ⟨_, _, (List.dropLast_concat_getLast hnil).symm⟩
  rw [hqs] at hp hw hs ⊢
  have hpq : Plain q := (plain_append.mp hp).1
  have hdl : (q ++ [s]).dropLast = q := by simp
  have hpe : fs.pathExists q = (fs.get q).isSome := by simp [Fs.pathExists, Fs.node_plain hwf hpq]
  have hnx : (Pc.prog (.set key v k) : Pc α).next h [] fs =
      some (if (fs.get q).isSome then .setOpen (q ++ [s]) v k else .mkdirDown (q ++ [s]) q.length v k, fs) := by
    simp only [Pc.next, ht, hs, hdl, hpe]
    simp
  have hqf : ∀ b, fs.get q ≠ some (.file b) := fun b =>
    hw.1 q (List.prefix_append _ _) (by intro e; have := congrArg List.length e; simp at this) b
  cases hgq : fs.get q with
  | some n =>
    cases n with
    | file b => exact absurd hgq (hqf b)
    | dir =>
      rw [hgq] at hnx
      exact ⟨fs, q, s, rfl, .one hnx, hwf, hgq, rfl⟩
  | none =>
    rw [hgq] at hnx
    have hdq : fs.dirable q := fun l hl => hw.1 l (hl.trans (List.prefix_append _ _)) (by
      intro e; have := hl.length_le; rw [e] at this; simp at this; omega)
    obtain ⟨fs1, hm, hwf1, hget1⟩ := (Fs.mkdirAll_spec hwf q hpq).1 hdq
    refine ⟨fs1, q, s, rfl, .step hnx ?_, hwf1, by rw [hget1]; simp [Fs.mkdirSpec, hgq], ?_⟩
    · have hl := leads_mkdir (h := h) (fs := fs) (p := q ++ [s]) (v := v) (k := k) q.length (by simp)
      rw [List.take_left] at hl
      unfold Fs.mkdirAll at hm
      rw [hm] at hl
      refine hl.trans (.one ?_)
      simp [Pc.next]
    · rw [hget1, Fs.mkdirSpec, if_neg]
      rintro ⟨hpre, _⟩
      have := hpre.length_le; simp at this; omega

/-- `set` of a new key makes an empty file before it locks it. -/
theorem leads_creates {key : Str} (v : Bytes × Outcome Unit) (k : Outcome Unit → Prog α) (hwf : fs.WF)
    (hp : Plain (h.loc key)) (hw : Writable fs (h.loc key)) (hc : fs.content (h.loc key) = none) :
    ∃ fs2, fs2.WF ∧ fs2.content (h.loc key) = some [] ∧ (fs2.put (h.loc key) (.file v.1)).WF ∧
      Leads h (.prog (.set key v k)) fs (.setLock (h.loc key) v k) fs2 ∧
      Leads h (.setLock (h.loc key) v k) fs2 (.prog (k v.2)) (fs2.put (h.loc key) (.file v.1)) := by
  obtain ⟨fs1, q, s, hqs, hl, hwf1, hd, hg⟩ := leads_dirs v k hwf hp hw
  have hnone : fs1.get (h.loc key) = none := by
    rw [hg]
    unfold Fs.content at hc
    have := hw.2
    cases hx : fs.get (h.loc key) with
    | none => rfl
    | some n => cases n <;> simp [hx] at hc this
  have ho : Fs.openCreate (h.loc key) fs1 = .ok (h.loc key, fs1.put (h.loc key) (.file [])) := by
    rw [hqs] at hp hnone ⊢
    rw [openCreate_plain hwf1 hp hd, hnone]
  have hwf2 : (fs1.put (h.loc key) (.file [])).WF := by
    rw [hqs] at hnone ⊢
    exact hwf1.put_file hd (by rw [hnone]; simp)
  refine ⟨_, hwf2, Fs.content_eq_some.mpr (by rw [Fs.get_put]; simp), ?_, hl.trans (.one (by simp [Pc.next, ho])), ?_⟩
  · rw [hqs] at hnone ⊢
    exact hwf1.put_put hd (by rw [hnone]; simp)
  generalize fs1.put (h.loc key) (.file []) = fs2
  refine .step (pc1 := .setTrunc (h.loc key) v k) (fs1 := fs2) (by simp [Pc.next]) ?_
  refine .step (pc1 := .setWrite (h.loc key) v 0 k) (fs1 := fs2.put (h.loc key) (.file [])) (by simp [Pc.next]) ?_
  have := leads_setWrite (h := h) (l := h.loc key) (v := v) (k := k) _ 0 (fs2.put (h.loc key) (.file [])) rfl
    (Nat.zero_le _) (by rw [Fs.get_put]; simp)
  rwa [Fs.put_put] at this

/-- Of two threads the first makes some store calls and then makes a new file, but does not lock it yet; then the
second, which changes no file, makes all its calls and finds that file empty; then the first goes on. -/
theorem looked_in {A B : Prog α} {key : Str} {v : Bytes × Outcome Unit} {k : Outcome Unit → Prog α}
    (hA : Leads h (.prog A) fs (.prog (.set key v k)) fs1) (hwf : fs1.WF) (hp : Plain (h.loc key))
    (hw : Writable fs1 (h.loc key)) (hc : fs1.content (h.loc key) = none) (hB : ∀ x, (B.run h x).2 = x) :
    ∃ fs2, fs2.WF ∧ fs2.content (h.loc key) = some [] ∧ (fs2.put (h.loc key) (.file v.1)).WF ∧
      ∃ ts s, (Sys.initial fs [A, B]).run h ts = some s ∧
      s.fs = ((k v.2).run h (fs2.put (h.loc key) (.file v.1))).2 ∧
      s.result 0 = some ((k v.2).run h (fs2.put (h.loc key) (.file v.1))).1 ∧
      s.result 1 = some (B.run h fs2).1 := by
  obtain ⟨fs2, hwf2, hc2, hwf3, l1, l2⟩ := leads_creates v k hwf hp hw hc
  refine ⟨fs2, hwf2, hc2, hwf3, ?_⟩
  obtain ⟨t1, h1⟩ := run_leads (hA.trans l1) [.prog A, .prog B] 0 rfl (fun j p hj hp => by
    match j, hj, hp with
    | 1, _, hp => cases hp; exact fun _ => rfl
    | j + 2, _, hp => simp at hp)
  have lB := leads_run (h := h) B fs2
  rw [hB] at lB
  obtain ⟨t2, h2⟩ := run_leads lB [.setLock (h.loc key) v k, .prog B] 1 rfl (fun j p hj hp => by
    match j, hj, hp with
    | 0, _, hp => cases hp; exact fun _ => rfl
    | j + 2, _, hp => simp at hp)
  obtain ⟨t3, h3⟩ := run_leads (l2.trans (leads_run (h := h) (k v.2) _))
    [.setLock (h.loc key) v k, .prog (.done (B.run h fs2).1)] 0 rfl (fun j p hj hp => by
      match j, hj, hp with
      | 1, _, hp => cases hp; exact fun _ => rfl
      | j + 2, _, hp => simp at hp)
  refine ⟨t1 ++ (t2 ++ t3), ⟨((k v.2).run h (fs2.put (h.loc key) (.file v.1))).2,
    [.prog (.done ((k v.2).run h (fs2.put (h.loc key) (.file v.1))).1), .prog (.done (B.run h fs2).1)]⟩, ?_, rfl, rfl, rfl⟩
  · rw [run_turns]
    show ((Sys.mk fs [.prog A, .prog B]).run h t1).bind _ = _
    rw [h1, Option.bind_some, run_turns]
    show ((Sys.mk fs2 [.setLock (h.loc key) v k, .prog B]).run h t2).bind _ = _
    rw [h2, Option.bind_some]
    exact h3

end

end Zarr.Threads
