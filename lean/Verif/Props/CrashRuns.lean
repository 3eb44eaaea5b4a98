import Verif.Lemmas.Solo
import Verif.Lemmas.RegionStep
import Verif.Lemmas.Threads
import Verif.Props.CrashCalls
/-!
# Crash states and runs

The states in which a crash can leave the filesystem (`Model/Crash.lean`, `Model/CrashCalls.lean`) are those
that a thread which runs alone goes through, one system call after the other (`Model/Threads.lean`). -/

namespace Zarr

namespace Threads

section
variable {α : Type} {h : Hier} {pc pc1 : Pc α} {fs fs1 s : Fs}

/-- The thread, alone, reaches a point where the filesystem is `s`. -/
def Left (h : Hier) (pc : Pc α) (fs s : Fs) : Prop := ∃ pc', Leads h pc fs pc' s

theorem left_step (hn : pc.next h [] fs = some (pc1, fs1)) : Left h pc fs s ↔ s = fs ∨ Left h pc1 fs1 s := by
  constructor
  · rintro ⟨pc', hl⟩
    cases hl with
    | refl => exact .inl rfl
    | step h1 h2 =>
      rw [hn] at h1
      cases h1
      exact .inr ⟨pc', h2⟩
  · rintro (rfl | ⟨pc', hl⟩)
    · exact ⟨pc, .refl ..⟩
    · exact ⟨pc', .step hn hl⟩

theorem left_self : Left h pc fs fs := ⟨pc, .refl ..⟩

/-- A step that leaves the filesystem as it is. -/
theorem left_same (hn : pc.next h [] fs = some (pc1, fs)) : Left h pc fs s ↔ Left h pc1 fs s := by
  rw [left_step hn]
  constructor
  · rintro (rfl | hl)
    · exact left_self
    · exact hl
  · exact .inr

theorem left_done (r : Outcome α) : Left h (.prog (.done r)) fs s ↔ s = fs := by
  constructor
  · rintro ⟨pc', hl⟩
    cases hl with
    | refl => rfl
    | step h1 _ => simp [Pc.next] at h1
  · rintro rfl; exact left_self

/-- Steps that leave the filesystem as it is. -/
theorem left_exists (key : Str) (k : Outcome Bool → Prog α) :
    Left h (.prog (.exists key k)) fs s ↔ Left h (.prog (k (storeExists h key fs).1)) fs s := by
  refine left_same ?_
  simp only [Pc.next, storeExists, M.read]
  cases getPath h.base key <;> rfl

theorem left_getRead {l : Loc} {k : Outcome (Option Bytes) → Prog α} {b : Bytes} (hb : fs.get l = some (.file b))
    (n : Nat) : ∀ acc, acc <+: b → b.length - acc.length = n →
    (Left h (.getRead l acc k) fs s ↔ Left h (.prog (k (.ok (some b)))) fs s) := by
  have hc : content fs l = b := by simp [content, hb]
  induction n with
  | zero =>
    intro acc ha hl
    have : acc = b := ha.eq_of_length (by have := ha.length_le; omega)
    subst this
    refine left_same ?_
    simp [Pc.next, hb, hc]
  | succ n ih =>
    intro acc ha hl
    have hlt : acc.length < b.length := by omega
    rw [left_same (pc1 := .getRead l (acc ++ [b[acc.length]]) k)
      (by simp [Pc.next, hb, hc, List.getElem?_eq_getElem hlt])]
    refine ih _ ?_ ?_
    · obtain ⟨t, rfl⟩ := ha
      cases t with
      | nil => simp at hlt
      | cons x t => simp
    · simp; omega

theorem left_get (key : Str) (k : Outcome (Option Bytes) → Prog α) :
    Left h (.prog (.get key k)) fs s ↔ Left h (.prog (k (storeGet h key fs).1)) fs s := by
  have hnx : (Pc.prog (.get key k) : Pc α).next h [] fs = match getPath h.base key with
    | .ok t => some (if fs.isFile (segs t) then .getOpen (segs t) k else .prog (k (.ok none)), fs)
    | .err e => some (.prog (k (.err e)), fs)
    | .panic => some (.prog (k .panic), fs) := rfl
  have hbg : (storeGet h key fs).1 = (getPath h.base key).bind fun t =>
      if fs.isFile (segs t) then (fs.readFile (segs t)).bind fun b => .ok (some b) else .ok none := rfl
  rw [hbg]
  cases hp : getPath h.base key with
  | err e => rw [hp] at hnx; exact left_same hnx
  | panic => rw [hp] at hnx; exact left_same hnx
  | ok t =>
    rw [hp] at hnx
    simp only [Outcome.bind] at hnx ⊢
    by_cases hf : fs.isFile (segs t)
    · rw [if_pos hf] at hnx ⊢
      rw [left_same hnx]
      obtain ⟨l, b, hl, hb⟩ : ∃ l b, fs.locate (segs t) = .ok l ∧ fs.get l = some (.file b) := by
        unfold Fs.isFile Fs.node at hf
        cases hl : fs.locate (segs t) with
        | err e => simp [hl] at hf
        | panic => simp [hl] at hf
        | ok l =>
          rw [hl] at hf
          cases hg : fs.get l with
          | none => simp [hg] at hf
          | some n =>
            cases n with
            | dir => simp [hg] at hf
            | file b => exact ⟨l, b, rfl, hg⟩
      have hr : fs.readFile (segs t) = .ok b := by simp [Fs.readFile, hl, hb]
      rw [hr, left_same (pc1 := .getLock l k) (by simp [Pc.next, hl, hb]),
        left_same (pc1 := .getRead l [] k) (by simp [Pc.next])]
      exact left_getRead hb _ [] List.nil_prefix rfl
    · rw [if_neg hf] at hnx ⊢
      exact left_same hnx

/-! ### `set` -/

theorem left_mkdir {p : List Str} {v : Bytes × Outcome Unit} {k : Outcome Unit → Prog α} (n : Nat)
    (hn : n < p.length) :
    Left h (.mkdirDown p n v k) fs s ↔ s = fs ∨ s ∈ Fs.mkdirAllRevStates (p.take n).reverse fs ∨
      Left h (match (Fs.mkdirAllRev (p.take n).reverse fs).1 with
      | .ok () => .mkdirUp p (n + 1) v k
      | .err e => .prog (k (.err e))
      | .panic => .prog (k .panic)) (Fs.mkdirAllRev (p.take n).reverse fs).2 s := by
  have hself : ∀ {pc : Pc α} {fs : Fs}, Left h pc fs s ↔ s = fs ∨ Left h pc fs s :=
    fun {pc fs} => ⟨.inr, fun h => h.elim (fun e => e ▸ left_self) id⟩
  induction n generalizing fs with
  | zero =>
    simp only [List.take_zero, List.reverse_nil, Fs.mkdirAllRev, Fs.mkdirAllRevStates, List.not_mem_nil, false_or]
    rw [left_same (pc1 := if fs.isDir [] then .mkdirUp p 1 v k else .prog (k (.err .notFound)))
      (by simp [Pc.next])]
    by_cases hd : fs.isDir []
    · simp only [if_pos hd]; exact hself
    · simp only [if_neg hd]; exact hself
  | succ n ih =>
    have e : (p.take (n + 1)).reverse = p[n] :: (p.take n).reverse := by
      rw [← List.take_append_getElem (by omega : n < p.length), List.reverse_append]; rfl
    have e' : (p[n] :: (p.take n).reverse).reverse = p.take (n + 1) := by rw [← e, List.reverse_reverse]
    have hnx : (Pc.mkdirDown p (n + 1) v k : Pc α).next h [] fs = match fs.mkdir (p.take (n + 1)) with
      | .ok fs' => some (.mkdirUp p (n + 1 + 1) v k, fs')
      | .err e => some (if e = .notFound then .mkdirDown p n v k else .mkdirDir p (n + 1) e v k, fs)
      | .panic => some (.prog (k .panic), fs) := rfl
    have hdir : ∀ e fs, (Pc.mkdirDir p (n + 1) e v k : Pc α).next h [] fs =
      some (if fs.isDir (p.take (n + 1)) then .mkdirUp p (n + 1 + 1) v k else .prog (k (.err e)), fs) := fun _ _ => rfl
    have hup : ∀ fs, (Pc.mkdirUp p (n + 1) v k : Pc α).next h [] fs = match fs.mkdir (p.take (n + 1)) with
      | .ok fs' => some (.mkdirUp p (n + 1 + 1) v k, fs')
      | .err e => some (.mkdirDir p (n + 1) e v k, fs)
      | .panic => some (.prog (k .panic), fs) := by
      intro fs
      simp only [Pc.next]
      rw [if_neg (by omega)]
      cases fs.mkdir (p.take (n + 1)) <;> rfl
    rw [e]
    simp only [Fs.mkdirAllRev, Fs.mkdirAllRevStates, e']
    cases hm : fs.mkdir (p.take (n + 1)) with
    | ok fs' =>
      rw [hm] at hnx
      rw [left_step hnx]
      simp only [List.mem_singleton]
      rw [← hself]
    | panic =>
      rw [hm] at hnx
      rw [left_same hnx]
      simp only [List.not_mem_nil, false_or]
      exact hself
    | err er =>
      rw [hm] at hnx
      simp only at hnx ⊢
      by_cases hnf : er = .notFound
      · rw [if_pos hnf] at hnx ⊢
        refine (left_same hnx).trans ((ih (fs := fs) (Nat.lt_of_succ_lt hn)).trans ?_)
        cases hr : Fs.mkdirAllRev (p.take n).reverse fs with
        | mk o fs1 =>
          cases o with
          | err e1 => simp [hnf]
          | panic => simp [hnf]
          | ok u =>
            simp only [hnf, if_pos, List.mem_append]
            have hup1 := hup fs1
            cases hm1 : fs1.mkdir (p.take (n + 1)) with
            | ok fs2 =>
              rw [hm1] at hup1
              rw [left_step hup1]
              have h1 : s = fs1 → s = fs ∨ s ∈ Fs.mkdirAllRevStates (p.take n).reverse fs := by
                rintro rfl
                have := mkdirStates_last (r := (p.take n).reverse) (fs := fs) fs
                rw [hr] at this
                have hm := List.getLast?_eq_some_getLast (l := fs :: Fs.mkdirAllRevStates (p.take n).reverse fs) (by simp)
                rw [hm] at this
                simp only [Option.getD_some] at this
                have := List.getLast_mem (l := fs :: Fs.mkdirAllRevStates (p.take n).reverse fs) (by simp)
                simp_all
              simp only [List.mem_singleton]
              constructor
              · rintro (a | a | a | a)
                · exact .inl a
                · exact .inr (.inl (.inl a))
                · rcases h1 a with b | b
                  · exact .inl b
                  · exact .inr (.inl (.inl b))
                · exact .inr (.inr a)
              · rintro (a | (a | a) | a)
                · exact .inl a
                · exact .inr (.inl a)
                · subst a; exact .inr (.inr (.inr left_self))
                · exact .inr (.inr (.inr a))
            | panic => rw [hm1] at hup1; rw [left_same hup1]; simp
            | err e1 =>
              rw [hm1] at hup1
              rw [left_same hup1]
              have hd1 := hdir e1 fs1
              by_cases hd : fs1.isDir (p.take (n + 1))
              · simp only [if_pos hd] at hd1 ⊢; rw [left_same hd1]; simp
              · simp only [if_neg hd] at hd1 ⊢; rw [left_same hd1]; simp
      · rw [if_neg hnf] at hnx ⊢
        rw [left_same hnx]
        have hd1 := hdir er fs
        simp only [if_neg hnf, List.not_mem_nil, false_or]
        by_cases hd : fs.isDir (p.take (n + 1))
        · simp only [if_pos hd] at hd1 ⊢; rw [left_same hd1]; exact hself
        · simp only [if_neg hd] at hd1 ⊢; rw [left_same hd1]; exact hself

theorem left_setWrite {l : Loc} {v : Bytes × Outcome Unit} {k : Outcome Unit → Prog α} (d : Nat) :
    ∀ n fs, v.1.length - n = d → n ≤ v.1.length → fs.get l = some (.file (v.1.take n)) →
    (Left h (.setWrite l v n k) fs s ↔ (∃ i, n ≤ i ∧ i ≤ v.1.length ∧ s = fs.put l (.file (v.1.take i))) ∨
      Left h (.prog (k v.2)) (fs.put l (.file v.1)) s) := by
  induction d with
  | zero =>
    intro n fs hd hn hg
    have : n = v.1.length := by omega
    subst this
    rw [List.take_length] at hg
    rw [Fs.put_of_get hg, left_same (pc1 := .prog (k v.2)) (by simp [Pc.next])]
    constructor
    · exact .inr
    · rintro (⟨i, h1, h2, rfl⟩ | hl)
      · rw [show i = v.1.length by omega, List.take_length, Fs.put_of_get hg]; exact left_self
      · exact hl
  | succ d ih =>
    intro n fs hd hn hg
    have hlt : n < v.1.length := by omega
    have hc : content fs l = v.1.take n := by simp [content, hg]
    have hnx : (Pc.setWrite l v n k : Pc α).next h [] fs =
        some (.setWrite l v (n + 1) k, fs.put l (.file (v.1.take (n + 1)))) := by
      simp only [Pc.next, List.getElem?_eq_getElem hlt, hc]
      rw [List.take_take, Nat.min_self, List.drop_eq_nil_of_le (by simp; omega), List.take_append_getElem]
    rw [left_step hnx, ih (n + 1) (fs.put l (.file (v.1.take (n + 1)))) (by omega) (by omega) (by rw [Fs.get_put]; simp)]
    simp only [Fs.put_put]
    constructor
    · rintro (rfl | ⟨i, h1, h2, rfl⟩ | hl)
      · exact .inl ⟨n, Nat.le_refl _, by omega, (Fs.put_of_get hg).symm⟩
      · exact .inl ⟨i, by omega, h2, rfl⟩
      · exact .inr hl
    · rintro (⟨i, h1, h2, rfl⟩ | hl)
      · by_cases hi : i = n
        · subst hi; exact .inl (Fs.put_of_get hg)
        · exact .inr (.inl ⟨i, by omega, h2, rfl⟩)
      · exact .inr (.inr hl)

theorem mem_writeStates {fs : Fs} {l : Loc} {v : Bytes} :
    s ∈ writeStates fs l [] v ↔ ∃ i, i ≤ v.length ∧ s = fs.put l (.file (v.take i)) := by
  simp only [writeStates, List.mem_map, List.mem_range, List.drop_nil, List.append_nil]
  constructor
  · rintro ⟨i, h1, rfl⟩; exact ⟨i, by omega, rfl⟩
  · rintro ⟨i, h1, rfl⟩; exact ⟨i, by omega, rfl⟩

theorem left_set (key : Str) (v : Bytes × Outcome Unit) (k : Outcome Unit → Prog α) :
    Left h (.prog (.set key v k)) fs s ↔ s ∈ setStates h key v.1 fs ∨
      Left h (.prog (k (storeSet h key v fs).1)) (storeSet h key v fs).2 s := by
  have hself : ∀ {pc : Pc α} {fs : Fs}, Left h pc fs s ↔ s = fs ∨ Left h pc fs s :=
    fun {pc fs} => ⟨.inr, fun h => h.elim (fun e => e ▸ left_self) id⟩
  have hnx : (Pc.prog (.set key v k) : Pc α).next h [] fs = match getPath h.base key with
    | .ok t =>
      some (if (segs t).isEmpty ∨ fs.pathExists (segs t).dropLast then .setOpen (segs t) v k
        else .mkdirDown (segs t) ((segs t).length - 1) v k, fs)
    | .err e => some (.prog (k (.err e)), fs)
    | .panic => some (.prog (k .panic), fs) := rfl
  unfold storeSet setStates
  cases hp : getPath h.base key with
  | err e => rw [hp] at hnx; rw [left_same hnx]; simpa using hself
  | panic => rw [hp] at hnx; rw [left_same hnx]; simpa using hself
  | ok t =>
    rw [hp] at hnx
    simp only at hnx ⊢
    have hopen : ∀ fs1, Left h (.setOpen (segs t) v k) fs1 s ↔
        s ∈ (match Fs.openCreate (segs t) fs1 with
          | .err _ => [fs1]
          | .panic => [fs1]
          | .ok (l, fs2) => fs1 :: fs2 :: writeStates fs2 l [] v.1) ∨ Left h
        (.prog (k (match Fs.openCreate (segs t) fs1 with
          | .err e => (.err e, fs1)
          | .panic => (.panic, fs1)
          | .ok (l, fs2) => (v.2, fs2.put l (.file v.1)) : Outcome Unit × Fs).1))
        (match Fs.openCreate (segs t) fs1 with
          | .err e => (.err e, fs1)
          | .panic => (.panic, fs1)
          | .ok (l, fs2) => (v.2, fs2.put l (.file v.1)) : Outcome Unit × Fs).2 s := by
      intro fs1
      cases ho : Fs.openCreate (segs t) fs1 with
      | err e => rw [left_same (pc1 := .prog (k (.err e))) (by simp [Pc.next, ho])]; simpa using hself
      | panic => rw [left_same (pc1 := .prog (k .panic)) (by simp [Pc.next, ho])]; simpa using hself
      | ok r =>
        obtain ⟨l, fs2⟩ := r
        rw [left_step (pc1 := .setLock l v k) (fs1 := fs2) (by simp [Pc.next, ho]),
          left_same (pc1 := .setTrunc l v k) (by simp [Pc.next]),
          left_step (pc1 := .setWrite l v 0 k) (fs1 := fs2.put l (.file [])) (by simp [Pc.next]),
          left_setWrite (h := h) (l := l) (v := v) (k := k) _ 0 (fs2.put l (.file [])) rfl (Nat.zero_le _)
          (by rw [Fs.get_put]; simp)]
        simp only [Fs.put_put, List.mem_cons, mem_writeStates, Nat.zero_le, true_and, or_assoc]
    by_cases hc : (segs t).isEmpty ∨ fs.pathExists (segs t).dropLast
    · have hcb : ((segs t).isEmpty || fs.pathExists (segs t).dropLast) = true := by simpa using hc
      rw [if_pos hc] at hnx ⊢
      simp only [hcb, if_true]
      rw [left_same hnx, hopen fs]
      cases ho : Fs.openCreate (segs t) fs with
      | err e => simp
      | panic => simp
      | ok r => simp
    · have hcb : ((segs t).isEmpty || fs.pathExists (segs t).dropLast) = false := by simpa using hc
      rw [if_neg hc] at hnx ⊢
      simp only [hcb, Bool.false_eq_true, if_false]
      rw [left_same hnx]
      have hne : segs t ≠ [] := fun e => hc (.inl (by simp [e]))
      have hlt : 0 < (segs t).length := List.length_pos_iff.mpr hne
      have hm := left_mkdir (h := h) (fs := fs) (s := s) (p := segs t) (v := v) (k := k) ((segs t).length - 1) (by omega)
      rw [← List.dropLast_eq_take] at hm
      rw [hm]
      have hlast := mkdirStates_last (r := (segs t).dropLast.reverse) (fs := fs) fs
      unfold Fs.mkdirAll Fs.mkdirAllStates
      cases hr : Fs.mkdirAllRev (segs t).dropLast.reverse fs with
      | mk o fs1 =>
        rw [hr] at hlast
        cases o with
        | err e => simp [or_assoc]
        | panic => simp [or_assoc]
        | ok u =>
          simp only
          rw [left_same (pc1 := .setOpen (segs t) v k) (by simp only [Pc.next]; rw [if_pos (by omega)]), hopen fs1]
          have h1 : s = fs1 → s = fs ∨ s ∈ Fs.mkdirAllRevStates (segs t).dropLast.reverse fs := by
            rintro rfl
            have hm := List.getLast?_eq_some_getLast (l := fs :: Fs.mkdirAllRevStates (segs t).dropLast.reverse fs) (by simp)
            rw [hm] at hlast
            simp only [Option.getD_some] at hlast
            have := List.getLast_mem (l := fs :: Fs.mkdirAllRevStates (segs t).dropLast.reverse fs) (by simp)
            simp_all
          cases ho : Fs.openCreate (segs t) fs1 with
          | err e =>
            simp only [List.mem_cons, List.not_mem_nil, false_or, or_assoc]
            constructor
            · rintro (a | a | a | a)
              · exact .inl a
              · exact .inr (.inl a)
              · rcases h1 a with b | b
                · exact .inl b
                · exact .inr (.inl b)
              · exact .inr (.inr a)
            · rintro (a | a | a)
              · exact .inl a
              · exact .inr (.inl a)
              · exact .inr (.inr (.inr a))
          | panic =>
            simp only [List.mem_cons, List.not_mem_nil, false_or, or_assoc]
            constructor
            · rintro (a | a | a | a)
              · exact .inl a
              · exact .inr (.inl a)
              · rcases h1 a with b | b
                · exact .inl b
                · exact .inr (.inl b)
              · exact .inr (.inr a)
            · rintro (a | a | a)
              · exact .inl a
              · exact .inr (.inl a)
              · exact .inr (.inr (.inr a))
          | ok r =>
            simp only [List.mem_append, List.mem_cons, or_assoc]
            constructor
            · rintro (a | a | a | a)
              · exact .inl a
              · exact .inr (.inl a)
              · rcases h1 a with b | b
                · exact .inl b
                · exact .inr (.inl b)
              · exact .inr (.inr a)
            · rintro (a | a | a)
              · exact .inl a
              · exact .inr (.inl a)
              · exact .inr (.inr (.inr a))

theorem left_erase (key : Str) (k : Outcome Bool → Prog α) :
    Left h (.prog (.erase key k)) fs s ↔ s ∈ eraseStates h key fs ∨
      Left h (.prog (k (storeErase h key fs).1)) (storeErase h key fs).2 s := by
  have hself : ∀ {pc : Pc α} {fs : Fs}, Left h pc fs s ↔ s = fs ∨ Left h pc fs s :=
    fun {pc fs} => ⟨.inr, fun h => h.elim (fun e => e ▸ left_self) id⟩
  have hnx : (Pc.prog (.erase key k) : Pc α).next h [] fs = match getPath h.base key with
    | .ok t => some (if fs.pathExists (segs t) then .eraOpen (segs t) k else .eraFinal (segs t) k, fs)
    | .err e => some (.prog (k (.err e)), fs)
    | .panic => some (.prog (k .panic), fs) := rfl
  have key' : Left h (.prog (.erase key k)) fs s ↔ s = fs ∨
      Left h (.prog (k (storeErase h key fs).1)) (storeErase h key fs).2 s := by
    unfold storeErase
    cases hp : getPath h.base key with
    | err e => rw [hp] at hnx; rw [left_same hnx]; exact hself
    | panic => rw [hp] at hnx; rw [left_same hnx]; exact hself
    | ok t =>
      rw [hp] at hnx
      simp only at hnx ⊢
      cases hl : fs.locate (segs t) with
      | err e =>
        have he : fs.pathExists (segs t) = false := by simp [Fs.pathExists, Fs.node, hl]
        rw [he] at hnx
        rw [left_same hnx]
        simp only [Bool.false_eq_true, if_false]
        rw [left_same (pc1 := .prog (k (.ok true))) (by simp [Pc.next, he])]
        exact hself
      | panic => exact absurd hl (Fs.locate_ne_panic _ _)
      | ok l =>
        have he : fs.pathExists (segs t) = (fs.get l).isSome := by simp [Fs.pathExists, Fs.node, hl]
        cases hg : fs.get l with
        | none =>
          rw [hg] at he
          rw [he] at hnx
          rw [left_same hnx]
          simp only [hg, Option.isSome_none, Bool.false_eq_true, if_false]
          rw [left_same (pc1 := .prog (k (.ok true))) (by simp [Pc.next, he])]
          exact hself
        | some n =>
          rw [hg] at he
          rw [he] at hnx
          rw [left_same hnx]
          simp only [Option.isSome_some, if_true]
          rw [left_same (pc1 := .eraLock (segs t) l k) (by simp [Pc.next, hl, hg]),
            left_same (pc1 := .eraUnlink (segs t) l k) (by simp [Pc.next])]
          cases n with
          | dir =>
            simp only [hg]
            rw [left_same (pc1 := .prog (k (.err .isADirectory))) (by simp [Pc.next, hl, hg])]
            exact hself
          | file b =>
            simp only [hg]
            rw [left_step (pc1 := .eraFinal (segs t) k) (fs1 := fs.del l) (by simp [Pc.next, hl, hg]),
              left_same (pc1 := .prog (k (.ok (!(fs.del l).pathExists (segs t))))) (by simp [Pc.next])]
  rw [key']
  simp only [eraseStates, List.mem_cons, List.not_mem_nil, or_false]
  constructor
  · rintro (a | a)
    · exact .inl (.inl a)
    · exact .inr a
  · rintro ((a | a) | a)
    · exact .inl a
    · exact .inr (a ▸ left_self)
    · exact .inr a

/-! ### Programs -/

/-- The states between the system calls of a program. -/
def Prog.states (h : Hier) : Prog α → Fs → List Fs
  | .done _, fs => [fs]
  | .exists key k, fs => (k (storeExists h key fs).1).states h fs
  | .get key k, fs => (k (storeGet h key fs).1).states h fs
  | .set key v k, fs => setStates h key v.1 fs ++ (k (storeSet h key v fs).1).states h (storeSet h key v fs).2
  | .erase key k, fs => eraseStates h key fs ++ (k (storeErase h key fs).1).states h (storeErase h key fs).2

theorem left_prog (p : Prog α) : ∀ fs, Left h (.prog p) fs s ↔ s ∈ p.states h fs := by
  induction p with
  | done r => intro fs; rw [left_done, Prog.states, List.mem_singleton]
  | «exists» key k ih => intro fs; rw [left_exists, ih, Prog.states]
  | get key k ih => intro fs; rw [left_get, ih, Prog.states]
  | set key v k ih => intro fs; rw [left_set, ih, Prog.states, List.mem_append]
  | erase key k ih => intro fs; rw [left_erase, ih, Prog.states, List.mem_append]

theorem states_head (p : Prog α) : ∀ fs, fs ∈ p.states h fs := fun fs => (left_prog p fs).mp left_self

theorem states_last (p : Prog α) : ∀ fs, (p.run h fs).2 ∈ p.states h fs := by
  induction p with
  | done r => intro fs; simp [Prog.states, Prog.run, M.lift]
  | «exists» key k ih => intro fs; exact ih _ _
  | get key k ih => intro fs; exact ih _ _
  | set key v k ih => intro fs; rw [Prog.states, List.mem_append]; exact .inr (ih _ _)
  | erase key k ih => intro fs; rw [Prog.states, List.mem_append]; exact .inr (ih _ _)

theorem states_bind {β : Type} (p : Prog β) (f : β → Prog α) : ∀ fs, s ∈ (p.bind f).states h fs ↔
    s ∈ p.states h fs ∨ ∃ a fs', p.run h fs = (.ok a, fs') ∧ s ∈ (f a).states h fs' := by
  induction p with
  | done r =>
    intro fs
    cases r with
    | ok a =>
      simp only [Prog.bind, Prog.states, List.mem_singleton, Prog.run, M.lift, Prod.mk.injEq, Outcome.ok.injEq]
      constructor
      · exact fun hs => .inr ⟨a, fs, ⟨rfl, rfl⟩, hs⟩
      · rintro (rfl | ⟨_, _, ⟨rfl, rfl⟩, hs⟩)
        · exact states_head _ _
        · exact hs
    | err e => simp [Prog.bind, Prog.states, Prog.run, M.lift]
    | panic => simp [Prog.bind, Prog.states, Prog.run, M.lift]
  | «exists» key k ih => intro fs; exact ih _ _
  | get key k ih => intro fs; exact ih _ _
  | set key v k ih =>
    intro fs
    simp only [Prog.bind, Prog.states, List.mem_append, ih, or_assoc]
    rfl
  | erase key k ih =>
    intro fs
    simp only [Prog.bind, Prog.states, List.mem_append, ih, or_assoc]
    rfl

theorem states_unit (p : Prog Unit) (fs : Fs) :
    s ∈ (p.bind fun _ => .done (.ok true)).states h fs ↔ s ∈ p.states h fs := by
  rw [states_bind]
  constructor
  · rintro (hs | ⟨a, fs', hr, hs⟩)
    · exact hs
    · rw [Prog.states, List.mem_singleton] at hs
      have := states_last (h := h) p fs
      rw [hr] at this
      rw [hs]; exact this
  · exact .inl

/-- A read, and what comes after it. -/
theorem states_read {β : Type} (p : Prog β) (f : β → Prog α) (k : β → List Fs) (hp : p.states h fs = [fs])
    (hk : ∀ a, s ∈ (f a).states h fs ↔ s ∈ k a) :
    s ∈ (p >>= f).states h fs ↔ s ∈ onOk (p.run h fs).1 fs k := by
  rw [Prog.bind_def, states_bind, hp]
  have hfs : (p.run h fs).2 = fs := by
    have := states_last (h := h) p fs
    rw [hp] at this
    simpa using this
  cases hr : p.run h fs with
  | mk o fs' =>
    rw [hr] at hfs
    simp only at hfs
    subst hfs
    cases o with
    | ok a =>
      simp only [List.mem_singleton, Prod.mk.injEq, Outcome.ok.injEq, onOk]
      constructor
      · rintro (rfl | ⟨_, _, ⟨rfl, rfl⟩, hs⟩)
        · exact (hk a).mp (states_head _ _)
        · exact (hk _).mp hs
      · exact fun hs => .inr ⟨a, _, ⟨rfl, rfl⟩, (hk a).mpr hs⟩
    | err e => simp [onOk]
    | panic => simp [onOk]

theorem states_exists (key : Str) (f : Bool → Prog α) (hf : ∀ a, (f a).states h fs = [fs]) :
    (pExists key >>= f).states h fs = [fs] := by
  show ((Prog.done (storeExists h key fs).1).bind f).states h fs = [fs]
  generalize (storeExists h key fs).1 = r
  cases r with
  | ok a => exact hf a
  | err e => rfl
  | panic => rfl

theorem states_set (key : Str) (v : Bytes × Outcome Unit) : s ∈ (pSet key v).states h fs ↔ s ∈ setStates h key v.1 fs := by
  rw [pSet, Prog.states, List.mem_append, Prog.states, List.mem_singleton]
  constructor
  · rintro (hs | rfl)
    · exact hs
    · have h1 := (setStates_ends h key v fs fs).2
      cases hl : (setStates h key v.1 fs).getLast? with
      | none =>
        have := (setStates_ends h key v fs fs).1
        rw [List.getLast?_eq_none_iff] at hl
        rw [hl] at this
        cases this
      | some x =>
        rw [hl] at h1
        rw [← h1]
        exact List.mem_of_getLast? hl
  · exact .inl

theorem next_lone : ∀ {r : Pc α × Fs}, pc.next h [pc] fs = some r ↔ pc.next h [] fs = some r := by
  intro r
  refine ⟨next_nil, fun hn => ?_⟩
  cases pc with
  | prog p => cases p <;> exact hn
  | getLock l k => simpa [Pc.next, Pc.exclusive] using hn
  | setLock l v k => simpa [Pc.next, Pc.holds, Pc.exclusive] using hn
  | eraLock p l k => simpa [Pc.next, Pc.holds, Pc.exclusive] using hn
  | _ => exact hn

/-- A thread among no others. -/
theorem run_alone {fs0 : Fs} : (∃ ts s', (⟨fs0, [pc]⟩ : Sys α).run h ts = some s' ∧ s'.fs = s) ↔ Left h pc fs0 s := by
  constructor
  · rintro ⟨ts, s', hr, rfl⟩
    induction ts generalizing pc fs0 with
    | nil => cases hr; exact left_self
    | cons t ts ih =>
      rw [Sys.run] at hr
      obtain ⟨s1, h1, h2⟩ := Option.bind_eq_some_iff.mp hr
      unfold Sys.advance at h1
      obtain ⟨pc0, h3, h4⟩ := Option.bind_eq_some_iff.mp h1
      rw [Option.map_eq_some_iff] at h4
      obtain ⟨r, h5, rfl⟩ := h4
      cases t with
      | succ t => simp at h3
      | zero =>
        simp only [List.getElem?_cons_zero, Option.some.injEq] at h3
        subst h3
        rw [left_step (next_lone.mp h5)]
        exact .inr (ih h2)
  · rintro ⟨pc', hl⟩
    induction hl with
    | refl pc fs => exact ⟨[], _, rfl, rfl⟩
    | step hn _ ih =>
      obtain ⟨ts, s', h1, h2⟩ := ih
      refine ⟨0 :: ts, s', ?_, h2⟩
      rw [Sys.run, Sys.advance]
      simp only [List.getElem?_cons_zero, Option.bind_some, next_lone.mpr hn, Option.map_some, List.set_cons_zero]
      exact h1

end

end Threads

/-- The call as a sequence of calls of the store. -/
def NodeOp.prog (env : Env) (h : Hier) : NodeOp → Option (Threads.Prog Bool)
  | .createGroup p => some ((Threads.createGroup env h p).bind fun _ => .done (.ok true))
  | .createArray p m => some ((Threads.createArray env h p m).bind fun _ => .done (.ok true))
  | .setAttributes p b => some ((Threads.setAttributes env h p b).bind fun _ => .done (.ok true))
  | .remove _ => none
  | .writeChunk p m _ c => some ((Threads.writeChunk env p m c).bind fun _ => .done (.ok true))
  | .deleteChunk p m pos => some (Threads.deleteChunk p m pos)

open Threads in
theorem NodeOp.crash_states {env : Env} {h : Hier} {op : NodeOp} {q : Threads.Prog Bool} (hq : op.prog env h = some q)
    (fs s : Fs) : s ∈ q.states h fs ↔ op.Crash env h fs s := by
  cases op with
  | createGroup p =>
    cases hq
    rw [states_unit]
    refine states_read _ _ _ rfl fun a => ?_
    cases a with
    | true => exact Iff.rfl
    | false =>
      refine states_read _ _ _ rfl fun g => ?_
      cases g with
      | true => exact Iff.rfl
      | false => exact states_set _ _
  | createArray p m =>
    cases hq
    rw [states_unit]
    refine states_read _ _ _ rfl fun a => ?_
    cases a with
    | true => exact Iff.rfl
    | false =>
      refine states_read _ _ _ rfl fun g => ?_
      cases g with
      | true => exact Iff.rfl
      | false => exact states_set _ _
  | setAttributes p b =>
    cases hq
    rw [states_unit, NodeOp.Crash, setAttributesStates, ← run_nodeMetadataKey]
    have hk : (Threads.nodeMetadataKey h p).states h fs = [fs] := by
      refine states_exists _ _ fun a => ?_
      cases a with
      | true => rfl
      | false =>
        refine states_exists _ _ fun g => ?_
        cases g <;> rfl
    refine states_read _ _ _ hk fun key => ?_
    refine states_read _ _ _ rfl fun v => ?_
    refine states_read _ _ _ rfl fun t => ?_
    refine states_read _ _ _ rfl fun j => ?_
    refine states_read _ _ _ rfl fun existing => ?_
    split
    · exact states_set _ _
    · exact Iff.rfl
  | remove p => cases hq
  | writeChunk p m t c =>
    cases hq
    rw [states_unit]
    exact states_set _ _
  | deleteChunk p m pos =>
    cases hq
    rw [NodeOp.Crash, deleteChunkStates]
    show s ∈ (pErase _).states h fs ↔ _
    rw [pErase, Prog.states, List.mem_append, Prog.states, List.mem_singleton, eraseStates]
    simp

/-- **C46** (the states). A crash inside `set` can leave the filesystem exactly as it is at some point of the run of the call,
system call by system call. -/
theorem C46_runs (h : Hier) (key : Str) (v : Bytes × Outcome Unit) (fs s : Fs) : s ∈ setStates h key v.1 fs ↔
    ∃ ts s', (Threads.Sys.initial fs [Threads.pSet key v]).run h ts = some s' ∧ s'.fs = s := by
  rw [← Threads.states_set, ← Threads.left_prog]
  exact Threads.run_alone.symm

/-- **C71** (the states). A crash inside create_group, create_array, set_attributes, write_chunk or delete_chunk can leave
the filesystem exactly as it is at some point of the run of the call, system call by system call. -/
theorem C71_runs (env : Env) (h : Hier) (op : NodeOp) (q : Threads.Prog Bool) (hq : op.prog env h = some q) (fs s : Fs) :
    op.Crash env h fs s ↔ ∃ ts s', (Threads.Sys.initial fs [q]).run h ts = some s' ∧ s'.fs = s := by
  rw [← NodeOp.crash_states hq, ← Threads.left_prog]
  exact Threads.run_alone.symm

/-- After ten system calls of `create_group` the directories exist and the document is empty. -/
example : ∃ s, (NodeOp.createGroup str!"/a").Crash Demo.envJ Demo.hier Demo.emptyFs s ∧
    Spec.groupDoc Demo.hier s str!"/a" = some [] := by
  have h : (((Threads.Sys.initial Demo.emptyFs [(Threads.createGroup Demo.envJ Demo.hier str!"/a").bind
      fun _ => .done (.ok true)]).run Demo.hier (List.replicate 10 0)).map fun s =>
        decide (Spec.groupDoc Demo.hier s.fs str!"/a" = some [])) = some true := by decide +kernel
  obtain ⟨s', h1, h2⟩ := Option.map_eq_some_iff.mp h
  exact ⟨s'.fs, (C71_runs _ _ _ _ rfl _ _).mpr ⟨_, s', h1, rfl⟩, of_decide_eq_true h2⟩

end Zarr
