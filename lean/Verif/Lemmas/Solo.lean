import Verif.Lemmas.Store
import Verif.Model.Walk
/-!
# A call made alone

The steps of a call that nobody disturbs lead to the result and the filesystem of the call in
`Model/Store.lean`. -/

namespace Zarr

/-! ## Entries -/

theorem Fs.insert_insert (es : List (Loc × Node)) (l : Loc) (a b : Node) :
    Fs.insert (Fs.insert es l a) l b = Fs.insert es l b := by
  induction es with
  | nil => simp [Fs.insert]
  | cons e es ih =>
    obtain ⟨k, n⟩ := e
    simp only [Fs.insert]
    by_cases hk : k = l
    · simp [Fs.insert, hk]
    · simp [Fs.insert, hk, ih]

theorem Fs.put_put (fs : Fs) (l : Loc) (a b : Node) : (fs.put l a).put l b = fs.put l b := by
  simp [Fs.put, Fs.insert_insert]

theorem Fs.insert_of_lookup {es : List (Loc × Node)} {l : Loc} {n : Node} (hl : Fs.lookup es l = some n) :
    Fs.insert es l n = es := by
  induction es with
  | nil => simp [Fs.lookup] at hl
  | cons e es ih =>
    obtain ⟨k, m⟩ := e
    simp only [Fs.insert, Fs.lookup] at hl ⊢
    by_cases hk : k = l
    · simp [hk] at hl ⊢; exact hl.symm
    · simp [hk] at hl ⊢; exact ih hl

theorem Fs.put_of_get {fs : Fs} {l : Loc} {n : Node} (hl : fs.get l = some n) : fs.put l n = fs := by
  cases fs with | mk es => simp only [Fs.put, Fs.insert_of_lookup hl]

namespace Threads

/-- The thread, alone, goes from one state to another. -/
inductive Leads {α : Type} (h : Hier) : Pc α → Fs → Pc α → Fs → Prop
  | refl (pc : Pc α) (fs : Fs) : Leads h pc fs pc fs
  | step {pc pc1 pc2 : Pc α} {fs fs1 fs2 : Fs} : pc.next h [] fs = some (pc1, fs1) →
      Leads h pc1 fs1 pc2 fs2 → Leads h pc fs pc2 fs2

section
variable {α : Type} {h : Hier} {pc pc1 pc2 : Pc α} {fs fs1 fs2 : Fs}

theorem Leads.trans (h1 : Leads h pc fs pc1 fs1) (h2 : Leads h pc1 fs1 pc2 fs2) : Leads h pc fs pc2 fs2 := by
  induction h1 with
  | refl => exact h2
  | step hn _ ih => exact .step hn (ih h2)

theorem Leads.one (hn : pc.next h [] fs = some (pc1, fs1)) : Leads h pc fs pc1 fs1 := .step hn (.refl ..)

theorem leads_exists (key : Str) (k : Outcome Bool → Prog α) :
    Leads h (.prog (.exists key k)) fs (.prog (k (storeExists h key fs).1)) (storeExists h key fs).2 := by
  refine .one ?_
  simp only [Pc.next, storeExists, M.read]
  cases getPath h.base key <;> rfl

theorem leads_getRead {l : Loc} {k : Outcome (Option Bytes) → Prog α} {b : Bytes} (hb : fs.get l = some (.file b))
    (n : Nat) : ∀ acc, acc <+: b → b.length - acc.length = n →
    Leads h (.getRead l acc k) fs (.prog (k (.ok (some b)))) fs := by
  have hc : content fs l = b := by simp [content, hb]
  induction n with
  | zero =>
    intro acc ha hl
    have : acc = b := ha.eq_of_length (by have := ha.length_le; omega)
    subst this
    refine .one ?_
    simp [Pc.next, hb, hc]
  | succ n ih =>
    intro acc ha hl
    have hlt : acc.length < b.length := by omega
    refine .step (pc1 := .getRead l (acc ++ [b[acc.length]]) k) (fs1 := fs) ?_ (ih _ ?_ ?_)
    · simp [Pc.next, hb, hc, List.getElem?_eq_getElem hlt]
    · obtain ⟨t, rfl⟩ := ha
      cases t with
      | nil => simp at hlt
      | cons x t => simp
    · simp; omega

theorem leads_get (key : Str) (k : Outcome (Option Bytes) → Prog α) :
    Leads h (.prog (.get key k)) fs (.prog (k (storeGet h key fs).1)) (storeGet h key fs).2 := by
  have hst : (storeGet h key fs).2 = fs := rfl
  rw [hst]
  have hnx : (Pc.prog (.get key k) : Pc α).next h [] fs = match getPath h.base key with
    | .ok t => some (if fs.isFile (segs t) then .getOpen (segs t) k else .prog (k (.ok none)), fs)
    | .err e => some (.prog (k (.err e)), fs)
    | .panic => some (.prog (k .panic), fs) := rfl
  have hbg : (storeGet h key fs).1 = (getPath h.base key).bind fun t =>
      if fs.isFile (segs t) then (fs.readFile (segs t)).bind fun b => .ok (some b) else .ok none := rfl
  rw [hbg]
  cases hp : getPath h.base key with
  | err e => rw [hp] at hnx; exact .one hnx
  | panic => rw [hp] at hnx; exact .one hnx
  | ok t =>
    rw [hp] at hnx
    simp only [Outcome.bind] at hnx ⊢
    by_cases hf : fs.isFile (segs t)
    · rw [if_pos hf] at hnx ⊢
      refine .step hnx ?_
      obtain ⟨l, b, hl, hb⟩ : ∃ l b, fs.locate (segs t) = .ok l ∧ fs.get l = some (.file b) := by
        unfold Fs.isFile Fs.node at hf
        cases hl : fs.locate (segs t) with
        | err e => simp [hl] at hf
        | panic => simp [hl] at hf
        | ok l =>
          rw [hl] at hf
          cases hg : fs.get l with
          | none => simp [hg] at hf
          | some n =>
            cases n with
            | dir => simp [hg] at hf
            | file b => exact ⟨l, b, rfl, hg⟩
      have hr : fs.readFile (segs t) = .ok b := by simp [Fs.readFile, hl, hb]
      rw [hr]
      refine .step (pc1 := .getLock l k) (fs1 := fs) (by simp [Pc.next, hl, hb]) ?_
      refine .step (pc1 := .getRead l [] k) (fs1 := fs) (by simp [Pc.next]) ?_
      exact leads_getRead hb _ [] List.nil_prefix rfl
    · rw [if_neg hf] at hnx ⊢
      exact .one hnx

/-! ### `set` -/

theorem leads_mkdir {p : List Str} {v : Bytes × Outcome Unit} {k : Outcome Unit → Prog α} (n : Nat)
    (hn : n < p.length) :
    Leads h (.mkdirDown p n v k) fs (match (Fs.mkdirAllRev (p.take n).reverse fs).1 with
      | .ok () => .mkdirUp p (n + 1) v k
      | .err e => .prog (k (.err e))
      | .panic => .prog (k .panic)) (Fs.mkdirAllRev (p.take n).reverse fs).2 := by
  induction n generalizing fs with
  | zero =>
    refine .one ?_
    simp only [Pc.next, if_pos, List.take_zero, List.reverse_nil, Fs.mkdirAllRev]
    by_cases hd : fs.isDir [] <;> simp [hd]
  | succ n ih =>
    have e : (p.take (n + 1)).reverse = p[n] :: (p.take n).reverse := by
      rw [← List.take_append_getElem (by omega : n < p.length), List.reverse_append]; rfl
    have e' : (p[n] :: (p.take n).reverse).reverse = p.take (n + 1) := by rw [← e, List.reverse_reverse]
    have hnx : (Pc.mkdirDown p (n + 1) v k : Pc α).next h [] fs = match fs.mkdir (p.take (n + 1)) with
      | .ok fs' => some (.mkdirUp p (n + 1 + 1) v k, fs')
      | .err e => some (if e = .notFound then .mkdirDown p n v k else .mkdirDir p (n + 1) e v k, fs)
      | .panic => some (.prog (k .panic), fs) := rfl
    have hdir : ∀ e fs, (Pc.mkdirDir p (n + 1) e v k : Pc α).next h [] fs =
      some (if fs.isDir (p.take (n + 1)) then .mkdirUp p (n + 1 + 1) v k else .prog (k (.err e)), fs) := fun _ _ => rfl
    have hup : ∀ fs, (Pc.mkdirUp p (n + 1) v k : Pc α).next h [] fs = match fs.mkdir (p.take (n + 1)) with
      | .ok fs' => some (.mkdirUp p (n + 1 + 1) v k, fs')
      | .err e => some (.mkdirDir p (n + 1) e v k, fs)
      | .panic => some (.prog (k .panic), fs) := by
      intro fs
      simp only [Pc.next]
      rw [if_neg (by omega)]
      cases fs.mkdir (p.take (n + 1)) <;> rfl
    rw [e]
    simp only [Fs.mkdirAllRev, e']
    cases hm : fs.mkdir (p.take (n + 1)) with
    | ok fs' => rw [hm] at hnx; exact .one hnx
    | panic => rw [hm] at hnx; exact .one hnx
    | err er =>
      rw [hm] at hnx
      simp only at hnx ⊢
      by_cases hnf : er = .notFound
      · rw [if_pos hnf] at hnx ⊢
        refine .step hnx ?_
        have hih := ih (fs := fs) (by omega)
        revert hih
        cases hr : Fs.mkdirAllRev (p.take n).reverse fs with
        | mk o fs1 =>
          intro hih
          cases o with
          | err e1 => exact hih
          | panic => exact hih
          | ok u =>
            refine hih.trans ?_
            simp only
            have hup1 := hup fs1
            cases hm1 : fs1.mkdir (p.take (n + 1)) with
            | ok fs2 => rw [hm1] at hup1; exact .one hup1
            | panic => rw [hm1] at hup1; exact .one hup1
            | err e1 =>
              rw [hm1] at hup1
              refine .step hup1 ?_
              have hd1 := hdir e1 fs1
              by_cases hd : fs1.isDir (p.take (n + 1))
              · simp only [if_pos hd] at hd1 ⊢; exact .one hd1
              · simp only [if_neg hd] at hd1 ⊢; exact .one hd1
      · rw [if_neg hnf] at hnx ⊢
        refine .step hnx ?_
        have hd1 := hdir er fs
        by_cases hd : fs.isDir (p.take (n + 1))
        · simp only [if_pos hd] at hd1 ⊢; exact .one hd1
        · simp only [if_neg hd] at hd1 ⊢; exact .one hd1

theorem leads_setWrite {l : Loc} {v : Bytes × Outcome Unit} {k : Outcome Unit → Prog α} (d : Nat) :
    ∀ n fs, v.1.length - n = d → n ≤ v.1.length → fs.get l = some (.file (v.1.take n)) →
    Leads h (.setWrite l v n k) fs (.prog (k v.2)) (fs.put l (.file v.1)) := by
  induction d with
  | zero =>
    intro n fs hd hn hg
    have : n = v.1.length := by omega
    subst this
    rw [List.take_length] at hg
    rw [Fs.put_of_get hg]
    refine .one ?_
    simp [Pc.next]
  | succ d ih =>
    intro n fs hd hn hg
    have hlt : n < v.1.length := by omega
    have hc : content fs l = v.1.take n := by simp [content, hg]
    have hnx : (Pc.setWrite l v n k : Pc α).next h [] fs =
        some (.setWrite l v (n + 1) k, fs.put l (.file (v.1.take (n + 1)))) := by
      simp only [Pc.next, List.getElem?_eq_getElem hlt, hc]
      rw [List.take_take, Nat.min_self, List.drop_eq_nil_of_le (by simp; omega), List.take_append_getElem]
    refine .step hnx ?_
    have := ih (n + 1) (fs.put l (.file (v.1.take (n + 1)))) (by omega) (by omega) (by rw [Fs.get_put]; simp)
    rwa [Fs.put_put] at this

theorem leads_set (key : Str) (v : Bytes × Outcome Unit) (k : Outcome Unit → Prog α) :
    Leads h (.prog (.set key v k)) fs (.prog (k (storeSet h key v fs).1)) (storeSet h key v fs).2 := by
  have hnx : (Pc.prog (.set key v k) : Pc α).next h [] fs = match getPath h.base key with
    | .ok t =>
      some (if (segs t).isEmpty ∨ fs.pathExists (segs t).dropLast then .setOpen (segs t) v k
        else .mkdirDown (segs t) ((segs t).length - 1) v k, fs)
    | .err e => some (.prog (k (.err e)), fs)
    | .panic => some (.prog (k .panic), fs) := rfl
  unfold storeSet
  cases hp : getPath h.base key with
  | err e => rw [hp] at hnx; exact .one hnx
  | panic => rw [hp] at hnx; exact .one hnx
  | ok t =>
    rw [hp] at hnx
    simp only at hnx ⊢
    have hopen : ∀ fs1, Leads h (.setOpen (segs t) v k) fs1
        (.prog (k (match Fs.openCreate (segs t) fs1 with
          | .err e => (.err e, fs1)
          | .panic => (.panic, fs1)
          | .ok (l, fs2) => (v.2, fs2.put l (.file v.1)) : Outcome Unit × Fs).1))
        (match Fs.openCreate (segs t) fs1 with
          | .err e => (.err e, fs1)
          | .panic => (.panic, fs1)
          | .ok (l, fs2) => (v.2, fs2.put l (.file v.1)) : Outcome Unit × Fs).2 := by
      intro fs1
      cases ho : Fs.openCreate (segs t) fs1 with
      | err e => exact .one (by simp [Pc.next, ho])
      | panic => exact .one (by simp [Pc.next, ho])
      | ok r =>
        obtain ⟨l, fs2⟩ := r
        refine .step (pc1 := .setLock l v k) (fs1 := fs2) (by simp [Pc.next, ho]) ?_
        refine .step (pc1 := .setTrunc l v k) (fs1 := fs2) (by simp [Pc.next]) ?_
        refine .step (pc1 := .setWrite l v 0 k) (fs1 := fs2.put l (.file [])) (by simp [Pc.next]) ?_
        have := leads_setWrite (h := h) (l := l) (v := v) (k := k) _ 0 (fs2.put l (.file [])) rfl (Nat.zero_le _)
          (by rw [Fs.get_put]; simp)
        rwa [Fs.put_put] at this
    by_cases hc : (segs t).isEmpty ∨ fs.pathExists (segs t).dropLast
    · rw [if_pos hc] at hnx ⊢
      exact .step hnx (hopen fs)
    · rw [if_neg hc] at hnx ⊢
      refine .step hnx ?_
      have hne : segs t ≠ [] := fun e => hc (.inl (by simp [e]))
      have hlt : 0 < (segs t).length := List.length_pos_iff.mpr hne
      have hm := leads_mkdir (h := h) (fs := fs) (p := segs t) (v := v) (k := k) ((segs t).length - 1) (by omega)
      rw [← List.dropLast_eq_take] at hm
      unfold Fs.mkdirAll
      revert hm
      cases Fs.mkdirAllRev (segs t).dropLast.reverse fs with
      | mk o fs1 =>
        intro hm
        cases o with
        | err e => exact hm
        | panic => exact hm
        | ok u =>
          refine hm.trans ?_
          simp only
          refine .step (pc1 := .setOpen (segs t) v k) (fs1 := fs1) ?_ (hopen fs1)
          simp only [Pc.next]
          rw [if_pos (by omega)]

theorem leads_erase (key : Str) (k : Outcome Bool → Prog α) :
    Leads h (.prog (.erase key k)) fs (.prog (k (storeErase h key fs).1)) (storeErase h key fs).2 := by
  have hnx : (Pc.prog (.erase key k) : Pc α).next h [] fs = match getPath h.base key with
    | .ok t => some (if fs.pathExists (segs t) then .eraOpen (segs t) k else .eraFinal (segs t) k, fs)
    | .err e => some (.prog (k (.err e)), fs)
    | .panic => some (.prog (k .panic), fs) := rfl
  unfold storeErase
  cases hp : getPath h.base key with
  | err e => rw [hp] at hnx; exact .one hnx
  | panic => rw [hp] at hnx; exact .one hnx
  | ok t =>
    rw [hp] at hnx
    simp only at hnx ⊢
    cases hl : fs.locate (segs t) with
    | err e =>
      have he : fs.pathExists (segs t) = false := by simp [Fs.pathExists, Fs.node, hl]
      rw [he] at hnx
      refine .step hnx (.one ?_)
      simp [Pc.next, he]
    | panic => exact absurd hl (Fs.locate_ne_panic _ _)
    | ok l =>
      have he : fs.pathExists (segs t) = (fs.get l).isSome := by simp [Fs.pathExists, Fs.node, hl]
      cases hg : fs.get l with
      | none =>
        rw [hg] at he
        rw [he] at hnx
        refine .step hnx (.one ?_)
        simp [Pc.next, he, hg]
      | some n =>
        rw [hg] at he
        rw [he] at hnx
        refine .step hnx ?_
        refine .step (pc1 := .eraLock (segs t) l k) (fs1 := fs) (by simp [Pc.next, hl, hg]) ?_
        refine .step (pc1 := .eraUnlink (segs t) l k) (fs1 := fs) (by simp [Pc.next]) ?_
        cases n with
        | dir => simp only [hg]; exact .one (by simp [Pc.next, hl, hg])
        | file b =>
          simp only [hg]
          refine .step (pc1 := .eraFinal (segs t) k) (fs1 := fs.del l) (by simp [Pc.next, hl, hg]) ?_
          exact .one (by simp [Pc.next])

end

end Threads

end Zarr
