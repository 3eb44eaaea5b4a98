import Verif.Props.ListingExact

/-!
# How `list` and `list_prefix` end

Further facts about the loop of `list_prefix` (storage.rs:52-63): it ends on every store, and `list` fails on
every hierarchy that holds a node. C69 and more about C43.
-/

namespace Zarr

open Spec

/-- The characters in the components of a location. -/
def sizeOfLoc (l : Loc) : Nat := l.flatten.length

theorem splitLastSep (v : Str) : '/' ∉ v ∨ ∃ a b, v = a ++ '/' :: b ∧ '/' ∉ b := by
  induction v with
  | nil => exact .inl (by simp)
  | cons c v ih =>
    rcases ih with h | ⟨a, b, rfl, hb⟩
    · by_cases hc : c = '/'
      · subst hc; exact .inr ⟨[], v, rfl, h⟩
      · exact .inl (by simp [h, Ne.symm hc])
    · exact .inr ⟨c :: a, b, rfl, hb⟩

/-- Gluing a name to the end of a key lengthens its last component. -/
theorem segs_append_name (v s : Str) (h1 : '/' ∉ s) (h2 : s ≠ []) (h3 : s ≠ str!".") (h4 : s ≠ str!"..") :
    ∃ A b t, segs v = A ++ b ∧ segs (v ++ s) = A ++ [t] ∧ b.flatten.length < t.length ∧ t ≠ str!".." := by
  have key : ∀ b : Str, '/' ∉ b → segs (b ++ s) = [b ++ s] ∧ (segs b).flatten.length < (b ++ s).length ∧
      b ++ s ≠ str!".." := by
    intro b hb
    have hlen : 0 < s.length := List.length_pos_iff.mpr h2
    refine ⟨segs_single _ (by simp [hb, h1]) (by simp [h2]) ?_, ?_, ?_⟩
    · intro e
      rcases b with _ | ⟨c, b⟩
      · exact h3 (by simpa using e)
      · have := congrArg List.length e
        simp at this
        simp [this] at h2
    · rw [segs_of_notMem b hb]
      split <;> simp <;> omega
    · intro e
      rcases b with _ | ⟨c, b⟩
      · exact h4 (by simpa using e)
      · rcases b with _ | ⟨d, b⟩
        · simp at e
          exact h3 (by simpa using e.2)
        · have := congrArg List.length e
          simp at this
          simp [this] at h2
  rcases splitLastSep v with hv | ⟨a, b, rfl, hb⟩
  · obtain ⟨k1, k2, k3⟩ := key v hv
    exact ⟨[], segs v, v ++ s, by simp, by simpa using k1, k2, k3⟩
  · obtain ⟨k1, k2, k3⟩ := key b hb
    refine ⟨segs a, segs b, b ++ s, segs_append_sep _ _, ?_, k2, k3⟩
    rw [List.append_assoc, List.cons_append, segs_append_sep, k1]

theorem loop_mono {h : Hier} {fs : Fs} {n : Nat} {vs r : List Str} {o : Outcome (List Str)}
    (hl : listPrefixLoop h fs n vs r = some o) {m : Nat} (hm : n ≤ m) : listPrefixLoop h fs m vs r = some o := by
  induction n generalizing m vs r with
  | zero => simp [listPrefixLoop] at hl
  | succ n ih =>
    obtain ⟨m, rfl⟩ : ∃ k, m = k + 1 := ⟨m - 1, by omega⟩
    cases vs with
    | nil => exact hl
    | cons v vs =>
      simp only [listPrefixLoop] at hl ⊢
      generalize (storeListDir h v fs).1 = x at hl ⊢
      cases x with
      | ok kp => exact ih hl (by omega)
      | err e => exact hl
      | panic => exact hl

/-- The loop ends from this stack, whatever was collected so far. -/
def LoopEnds (h : Hier) (fs : Fs) (vs : List Str) : Prop :=
  ∀ result, ∃ n o, listPrefixLoop h fs n vs result = some o ∧ o ≠ .panic

theorem LoopEnds.nil (h : Hier) (fs : Fs) : LoopEnds h fs [] :=
  fun result => ⟨1, .ok result, rfl, by simp⟩

theorem listing_cases {h : Hier} {fs : Fs} {v : Str} (hwf : fs.WF) (hp : Plain (h.loc v)) :
    (fs.get (h.loc v) = some .dir ∧ ∃ ks ps, (storeListDir h v fs).1 = .ok (ks, ps) ∧
      (∀ k, k ∈ ks ↔ ∃ s b, k = v ++ s ∧ fs.get (h.loc v ++ [s]) = some (.file b)) ∧
      (∀ k, k ∈ ps ↔ ∃ s, k = v ++ s ∧ fs.get (h.loc v ++ [s]) = some .dir)) ∨
    (fs.get (h.loc v) ≠ some .dir ∧ ∃ e, (storeListDir h v fs).1 = .err e) := by
  cases hg : fs.get (h.loc v) with
  | none =>
    right
    refine ⟨by simp, ?_⟩
    obtain ⟨t, ht, hseg⟩ := getPath_loc hp
    simp only [storeListDir, M.read_apply, ht, Outcome.bind_ok, hseg]
    cases hl : fs.locate (h.loc v) with
    | ok l => rw [Fs.locate_plain_ok hp hl]; simp only [hg]; exact ⟨_, rfl⟩
    | err e => exact ⟨_, rfl⟩
    | panic => exact absurd hl (Fs.locate_ne_panic _ _)
  | some n =>
    have hls := storeListDir_eq hwf hp
    rw [hg] at hls
    cases n with
    | file b => exact .inr ⟨by simp, _, congrArg Prod.fst hls⟩
    | dir =>
      refine .inl ⟨rfl, _, _, congrArg Prod.fst hls, ?_, ?_⟩
      · intro k
        rw [List.mem_filterMap]
        constructor
        · rintro ⟨⟨s, n⟩, he, hk⟩
          cases n with
          | dir => simp at hk
          | file b => exact ⟨s, b, by simpa using hk.symm, (Fs.mem_children hwf).mp he⟩
        · rintro ⟨s, b, rfl, hs⟩
          exact ⟨(s, .file b), (Fs.mem_children hwf).mpr hs, by simp⟩
      · intro k
        rw [List.mem_filterMap]
        constructor
        · rintro ⟨⟨s, n⟩, he, hk⟩
          cases n with
          | file b => simp at hk
          | dir => exact ⟨s, by simpa using hk.symm, (Fs.mem_children hwf).mp he⟩
        · rintro ⟨s, rfl, hs⟩
          exact ⟨(s, .dir), (Fs.mem_children hwf).mpr hs, by simp⟩

/-- A bound on the size of the locations in the tree. -/
theorem exists_size_bound (fs : Fs) : ∃ B, ∀ l n, fs.get l = some n → sizeOfLoc l ≤ B := by
  have : ∀ es : List (Loc × Node), ∃ B, ∀ l n, Fs.lookup es l = some n → sizeOfLoc l ≤ B := by
    intro es
    induction es with
    | nil => exact ⟨0, by simp [Fs.lookup]⟩
    | cons e es ih =>
      obtain ⟨B, hB⟩ := ih
      obtain ⟨k, m⟩ := e
      refine ⟨B + sizeOfLoc k, fun l n hl => ?_⟩
      simp only [Fs.lookup] at hl
      split at hl
      · rename_i hk; subst hk; omega
      · have := hB l n hl; omega
  exact this fs.ents

theorem child_grows {h : Hier} {v s : Str} (hp : Plain (h.loc v)) (h1 : '/' ∉ s) (h2 : s ≠ [])
    (h3 : s ≠ str!".") (h4 : s ≠ str!"..") :
    Plain (h.loc (v ++ s)) ∧ sizeOfLoc (h.loc v) < sizeOfLoc (h.loc (v ++ s)) := by
  obtain ⟨A, b, t, e1, e2, hlt, ht⟩ := segs_append_name v s h1 h2 h3 h4
  unfold Hier.loc at hp ⊢
  rw [e1] at hp ⊢
  rw [e2]
  constructor
  · unfold Plain at hp ⊢
    simp only [List.mem_append, List.mem_singleton, not_or] at hp ⊢
    exact ⟨hp.1, hp.2.1, fun e => ht e.symm⟩
  · simp only [sizeOfLoc, List.flatten_append, List.length_append, List.flatten_cons, List.flatten_nil,
      List.append_nil]
    omega

theorem loop_ends {h : Hier} {fs : Fs} (hwf : fs.WF) (hn : NamesOk fs) {B : Nat}
    (hB : ∀ l n, fs.get l = some n → sizeOfLoc l ≤ B) (d : Nat) :
    ∀ vs rest, (∀ v ∈ vs, Plain (h.loc v) ∧ B + 1 - sizeOfLoc (h.loc v) ≤ d) → LoopEnds h fs rest →
      LoopEnds h fs (vs ++ rest) := by
  induction d with
  | zero =>
    intro vs rest hvs hrest
    cases vs with
    | nil => exact hrest
    | cons v vs =>
      obtain ⟨hp, hs⟩ := hvs v (List.mem_cons_self ..)
      intro result
      rcases listing_cases hwf hp with ⟨hd, _⟩ | ⟨_, e, he⟩
      · have := hB _ _ hd; omega
      · exact ⟨1, .err e, by simp only [List.cons_append, listPrefixLoop, he], by simp⟩
  | succ d ihd =>
    intro vs rest hvs hrest
    induction vs with
    | nil => exact hrest
    | cons v vs ih =>
      have ih := ih fun w hw => hvs w (List.mem_cons_of_mem _ hw)
      obtain ⟨hp, hs⟩ := hvs v (List.mem_cons_self ..)
      intro result
      rcases listing_cases hwf hp with ⟨hd, ks, ps, hl, _, hps⟩ | ⟨_, e, he⟩
      · have hsz := hB _ _ hd
        obtain ⟨n, o, h1, h2⟩ := ihd ps.reverse (vs ++ rest) (by
          intro w hw
          obtain ⟨s, rfl, hg⟩ := (hps w).mp (List.mem_reverse.mp hw)
          obtain ⟨n1, n2, n3, n4⟩ := hn _ _ _ hg
          obtain ⟨c1, c2⟩ := child_grows hp n2 n1 n3 n4
          exact ⟨c1, by omega⟩) ih (result ++ ks)
        exact ⟨n + 1, o, by simp only [List.cons_append, listPrefixLoop, hl]; exact h1, h2⟩
      · exact ⟨1, .err e, by simp only [List.cons_append, listPrefixLoop, he], by simp⟩

/-- **C69**: `list_prefix` ends on every store, with a result or an error. -/
theorem C69 (h : Hier) (q : Str) (fs : Fs) (hwf : fs.WF) (hn : NamesOk fs)
    (hb : Plain (segs h.base)) (hq : Plain (segs q)) :
    ∃ n o, o ≠ .panic ∧ ∀ fuel, n ≤ fuel → listPrefix h fs fuel q = some o := by
  obtain ⟨B, hB⟩ := exists_size_bound fs
  have hp : Plain (h.loc q) := by rw [Hier.loc]; exact hb.append hq
  obtain ⟨n, o, h1, h2⟩ := loop_ends (h := h) hwf hn hB _ [q] []
    (by simp only [List.mem_singleton, forall_eq]; exact ⟨hp, Nat.le_refl _⟩) (LoopEnds.nil h fs) []
  exact ⟨n, o, h2, fun fuel hf => loop_mono h1 hf⟩

/-- **C69** for `list`. -/
theorem C69_list (h : Hier) (fs : Fs) (hwf : fs.WF) (hn : NamesOk fs) (hb : Plain (segs h.base)) :
    ∃ n o, o ≠ .panic ∧ ∀ fuel, n ≤ fuel → listAll h fs fuel = some o :=
  C69 h str!"/" fs hwf hn hb (by decide)

/-- The prefixes the loop comes to from `v`. -/
inductive Visits (h : Hier) (fs : Fs) : Str → Str → Prop
  | refl (v) : Visits h fs v v
  | step {v w x ks ps} : (storeListDir h v fs).1 = .ok (ks, ps) → w ∈ ps → Visits h fs w x → Visits h fs v x

theorem loop_ok_visits {h : Hier} {fs : Fs} {n : Nat} {vs r r' : List Str}
    (hl : listPrefixLoop h fs n vs r = some (.ok r')) :
    ∀ v ∈ vs, ∀ w, Visits h fs v w → ∃ x, (storeListDir h w fs).1 = .ok x := by
  induction n generalizing vs r with
  | zero => simp [listPrefixLoop] at hl
  | succ n ih =>
    cases vs with
    | nil => simp
    | cons u us =>
      simp only [listPrefixLoop] at hl
      cases hx : (storeListDir h u fs).1 with
      | err e => rw [hx] at hl; simp at hl
      | panic => rw [hx] at hl; simp at hl
      | ok kp =>
        obtain ⟨ks, ps⟩ := kp
        rw [hx] at hl
        have ih := ih hl
        intro v hv w hvw
        rcases List.mem_cons.mp hv with rfl | hv
        · cases hvw with
          | refl => exact ⟨_, hx⟩
          | step h1 h2 h3 =>
            rw [hx] at h1
            simp only [Outcome.ok.injEq, Prod.mk.injEq] at h1
            obtain ⟨rfl, rfl⟩ := h1
            exact ih _ (by simp [h2]) _ h3
        · exact ih v (by simp [hv]) w hvw

/-- C43 fails on every hierarchy that holds a node other than the root: `list` is an error. -/
theorem C43_violated_always (h : Hier) (fs : Fs) (hwf : fs.WF) (hn : NamesOk fs)
    (hb : Plain (segs h.base)) (hr : fs.get (segs h.base ++ [str!"meta", str!"root"]) = some .dir)
    (hno : fs.get (segs h.base ++ [str!"metaroot"]) ≠ some .dir) :
    ∃ n e, ∀ fuel, n ≤ fuel → listAll h fs fuel = some (.err e) := by
  obtain ⟨n, o, ho, hl⟩ := C69_list h fs hwf hn hb
  cases o with
  | panic => exact absurd rfl ho
  | err e => exact ⟨n, e, hl⟩
  | ok r =>
    exfalso
    have hl := hl n (Nat.le_refl _)
    have hr' : fs.get ((segs h.base ++ [str!"meta"]) ++ [str!"root"]) = some .dir := by simpa using hr
    have hm := hwf.parent _ _ _ hr'
    have l0 : h.loc str!"/" = segs h.base := by simp [Hier.loc, segs, splitOn]
    have l1 : h.loc str!"/meta" = segs h.base ++ [str!"meta"] := by
      rw [Hier.loc]; exact congrArg _ (by decide)
    have l2 : h.loc str!"/metaroot" = segs h.base ++ [str!"metaroot"] := by
      rw [Hier.loc]; exact congrArg _ (by decide)
    have p1 : Plain (h.loc str!"/") := by rw [l0]; exact hb
    have p2 : Plain (h.loc str!"/meta") := by rw [l1]; exact hb.append (by decide)
    have p3 : Plain (h.loc str!"/metaroot") := by rw [l2]; exact hb.append (by decide)
    have hd0 : fs.get (h.loc str!"/") = some .dir := by rw [l0]; exact hwf.parent _ _ _ hm
    rcases listing_cases hwf p1 with ⟨_, ks, ps, e1, _, m1⟩ | ⟨hnd, _⟩
    · rcases listing_cases hwf p2 with ⟨_, ks', ps', e2, _, m2⟩ | ⟨hnd, _⟩
      · have v : Visits h fs str!"/" str!"/metaroot" :=
          .step e1 ((m1 str!"/meta").mpr ⟨str!"meta", rfl, by rw [l0]; exact hm⟩)
            (.step e2 ((m2 str!"/metaroot").mpr ⟨str!"root", rfl, by rw [l1]; exact hr'⟩) (.refl _))
        obtain ⟨x, hx⟩ := loop_ok_visits hl _ (List.mem_singleton.mpr rfl) _ v
        rcases listing_cases hwf p3 with ⟨hd, _⟩ | ⟨_, e, he⟩
        · rw [l2] at hd; exact hno hd
        · rw [he] at hx; simp at hx
      · exact hnd (by rw [l1]; exact hm)
    · exact hnd hd0

/-- The hypotheses of `C69` and `C43_violated_always` hold in a hierarchy with a group and an array; `list` is
an error there, listing below the array's directory succeeds. -/
example : (Demo.docsFs.WF ∧ NamesOk Demo.docsFs) ∧ Plain (segs Demo.hier.base) ∧
    Demo.docsFs.get (segs Demo.hier.base ++ [str!"meta", str!"root"]) = some .dir ∧
    Demo.docsFs.get (segs Demo.hier.base ++ [str!"metaroot"]) ≠ some .dir ∧
    (∃ e, listAll Demo.hier Demo.docsFs 20 = some (.err e)) ∧
    listPrefix Demo.hier Demo.docsFs 20 str!"/meta/root/a" = some (.ok [str!"/meta/root/ay.array.json"]) :=
  ⟨wf_names_of_check (by decide +kernel), by decide, by decide +kernel, by decide +kernel,
    ⟨.notFound, by decide +kernel⟩, by decide +kernel⟩

end Zarr
