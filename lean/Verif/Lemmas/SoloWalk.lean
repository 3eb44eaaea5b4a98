import Verif.Lemmas.Solo
import Verif.Props.Listing
/-!
# Removal and listing made alone

The steps of `Model/Walk.lean` of a program that nobody disturbs lead to the result and the filesystem of the
program run call by call. -/

namespace Zarr

/-- The names in the tree are names: no entry is called `..`. -/
def Fs.Named (fs : Fs) : Prop := ∀ l n, fs.get l = some n → Plain l

theorem Fs.Named.delTree {fs : Fs} (h : fs.Named) (l : Loc) : (fs.delTree l).Named := by
  intro x n hx
  rw [Fs.get_delTree] at hx
  split at hx
  · simp at hx
  · exact h x n hx

theorem Fs.Named.del {fs : Fs} (h : fs.Named) (l : Loc) : (fs.del l).Named := by
  intro x n hx
  rw [Fs.get_del] at hx
  split at hx
  · simp at hx
  · exact h x n hx

theorem Fs.Named.put {fs : Fs} (h : fs.Named) {l : Loc} (hl : Plain l) (n : Node) : (fs.put l n).Named := by
  intro x n hx
  rw [Fs.get_put] at hx
  split at hx
  · rename_i e; rw [e]; exact hl
  · exact h x _ hx

theorem Plain.of_prefix {a b : List Str} (h : Plain b) (hab : a <+: b) : Plain a := by
  obtain ⟨t, rfl⟩ := hab
  exact (plain_append.mp h).1

theorem storeSet_named {h : Hier} {key : Str} {v : Bytes × Outcome Unit} {fs : Fs} (hwf : fs.WF) (hn : fs.Named)
    (hp : Plain (h.loc key)) : (storeSet h key v fs).2.Named := by
  obtain ⟨s1, s2⟩ := storeSet_spec (h := h) (key := key) v hwf hp
  by_cases hw : Writable fs (h.loc key)
  · obtain ⟨fs1, h1, _, h3⟩ := s1 hw
    rw [h1]
    intro l n hl
    rw [h3, setSpec] at hl
    split at hl
    · rename_i e; rw [e]; exact hp
    · split at hl
      · rename_i e; exact hp.of_prefix e.1
      · exact hn l n hl
  · obtain ⟨e, he⟩ := s2 hw
    rw [he]; exact hn

theorem storeErase_named {h : Hier} {key : Str} {fs : Fs} (hwf : fs.WF) (hn : fs.Named)
    (hp : Plain (h.loc key)) : (storeErase h key fs).2.Named := by
  rw [storeErase_spec hwf hp]
  split
  · exact hn.del _
  · exact hn
  · exact hn

theorem storeErasePrefix_named {h : Hier} {key : Str} {fs : Fs} (hwf : fs.WF) (hn : fs.Named)
    (hp : Plain (h.loc key)) (hne : h.loc key ≠ []) : (storeErasePrefix h key fs).2.Named := by
  obtain ⟨fs', e1, _, e3⟩ := storeErasePrefix_spec (h := h) (key := key) hwf hp hne
  rw [e1]
  intro l n hl
  rw [e3] at hl
  split at hl
  · simp at hl
  · exact hn l n hl

namespace Wide

/-- Every key the program can use has an ordinary location, in `V` if it is read and in `W` if it is
written or erased; whether there is a file may also be asked for locations in `N`. -/
def Prog.Uses {α : Type} (h : Hier) (N V W : Loc → Prop) : Prog α → Prop
  | .done _ => True
  | .exists key k => Plain (h.loc key) ∧ (V (h.loc key) ∨ N (h.loc key)) ∧ ∀ r, (k r).Uses h N V W
  | .get key k => Plain (h.loc key) ∧ V (h.loc key) ∧ ∀ r, (k r).Uses h N V W
  | .set key _ k => Plain (h.loc key) ∧ W (h.loc key) ∧ ∀ r, (k r).Uses h N V W
  | .erase key k => Plain (h.loc key) ∧ W (h.loc key) ∧ ∀ r, (k r).Uses h N V W
  | .erasePrefix key k => Plain (h.loc key) ∧ W (h.loc key) ∧ ∀ r, (k r).Uses h N V W
  | .listDir key k => Plain (h.loc key) ∧ V (h.loc key) ∧ ∀ r, (k r).Uses h N V W

/-- The thread, alone, goes from one state to another. -/
inductive Leads {α : Type} (h : Hier) : Pc α → Fs → Pc α → Fs → Prop
  | refl (pc : Pc α) (fs : Fs) : Leads h pc fs pc fs
  | step {pc pc1 pc2 : Pc α} {fs fs1 fs2 : Fs} : pc.next h [] fs = some (pc1, fs1) →
      Leads h pc1 fs1 pc2 fs2 → Leads h pc fs pc2 fs2

section
variable {α : Type} {h : Hier} {pc pc1 pc2 : Pc α} {fs fs1 fs2 : Fs}

theorem Leads.trans (h1 : Leads h pc fs pc1 fs1) (h2 : Leads h pc1 fs1 pc2 fs2) : Leads h pc fs pc2 fs2 := by
  induction h1 with
  | refl => exact h2
  | step hn _ ih => exact .step hn (ih h2)

theorem Leads.one (hn : pc.next h [] fs = some (pc1, fs1)) : Leads h pc fs pc1 fs1 := .step hn (.refl ..)

theorem Leads.snoc (h1 : Leads h pc fs pc1 fs1) (hn : pc1.next h [] fs1 = some (pc2, fs2)) :
    Leads h pc fs pc2 fs2 := h1.trans (.one hn)

/-- What happens next is determined: a thread that finished is where every other way leads. -/
theorem Leads.finish {r : Outcome α} (h1 : Leads h pc fs (.prog (.done r)) fs1) (h2 : Leads h pc fs pc2 fs2) :
    Leads h pc2 fs2 (.prog (.done r)) fs1 := by
  induction h2 with
  | refl => exact h1
  | step hn _ ih =>
    refine ih ?_
    cases h1 with
    | refl => simp [Pc.next] at hn
    | step hn' h1 =>
      rw [hn] at hn'
      simp only [Option.some.injEq, Prod.mk.injEq] at hn'
      rw [hn'.1, hn'.2]; exact h1

theorem Leads.finish_unique {r r' : Outcome α} (h1 : Leads h pc fs (.prog (.done r)) fs1)
    (h2 : Leads h pc fs (.prog (.done r')) fs2) : r' = r ∧ fs2 = fs1 := by
  have := h1.finish h2
  cases this with
  | refl => exact ⟨rfl, rfl⟩
  | step hn _ => simp [Pc.next] at hn

theorem leads_base {pc : Threads.Pc (Prog α)} {P : Prog α} (hl : Threads.Leads h pc fs (.prog (.done (.ok P))) fs2) :
    Leads h (.ofBase pc) fs (.prog P) fs2 := by
  generalize he : (Threads.Pc.prog (.done (.ok P)) : Threads.Pc (Prog α)) = q at hl
  induction hl with
  | refl => subst he; exact .refl ..
  | @step pc0 pc1 pc2 fs0 fs1 fs2 hn _ ih =>
    have hb : Pc.ofBase pc0 = .base pc0 := by
      unfold Pc.ofBase
      split
      · simp [Threads.Pc.next] at hn
      · rfl
    rw [hb]
    refine .step (pc1 := .ofBase pc1) (fs1 := fs1) ?_ (ih he)
    simp [Pc.next, baseNext, hn]

theorem leads_of_base {P0 : Prog α} {pc : Threads.Pc (Prog α)} {P : Prog α}
    (hnext : ∀ fs, (Pc.prog P0).next h [] fs = baseNext h [] fs pc) (hb : Pc.ofBase pc = .base pc)
    (hl : Threads.Leads h pc fs (.prog (.done (.ok P))) fs2) : Leads h (.prog P0) fs (.prog P) fs2 := by
  have h1 := leads_base hl
  rw [hb] at h1
  cases h1 with
  | step hn hr =>
    refine .step ?_ hr
    rw [hnext]; exact hn

theorem leads_exists (key : Str) (k : Outcome Bool → Prog α) :
    Leads h (.prog (.exists key k)) fs (.prog (k (storeExists h key fs).1)) (storeExists h key fs).2 :=
  leads_of_base (fun _ => rfl) rfl (Threads.leads_exists key fun r => .done (.ok (k r)))

theorem leads_get (key : Str) (k : Outcome (Option Bytes) → Prog α) :
    Leads h (.prog (.get key k)) fs (.prog (k (storeGet h key fs).1)) (storeGet h key fs).2 :=
  leads_of_base (fun _ => rfl) rfl (Threads.leads_get key fun r => .done (.ok (k r)))

theorem leads_set (key : Str) (v : Bytes × Outcome Unit) (k : Outcome Unit → Prog α) :
    Leads h (.prog (.set key v k)) fs (.prog (k (storeSet h key v fs).1)) (storeSet h key v fs).2 :=
  leads_of_base (fun _ => rfl) rfl (Threads.leads_set key v fun r => .done (.ok (k r)))

theorem leads_erase (key : Str) (k : Outcome Bool → Prog α) :
    Leads h (.prog (.erase key k)) fs (.prog (k (storeErase h key fs).1)) (storeErase h key fs).2 :=
  leads_of_base (fun _ => rfl) rfl (Threads.leads_erase key fun r => .done (.ok (k r)))

/-! ## `list_dir` -/

theorem leads_listing {pre : Str} {p : List Str} {k : Outcome (List Str × List Str) → Prog α}
    (es : List (Str × Node)) (hes : ∀ e ∈ es, fs.node (p ++ [e.1]) = some e.2) (keys prefixes : List Str) :
    Leads h (.listing pre p (es.map Prod.fst) keys prefixes k) fs
      (.prog (k (.ok (keys ++ es.filterMap (fun e => if e.2 = .dir then none else some (pre ++ e.1)),
        prefixes ++ es.filterMap (fun e => if e.2 = .dir then some (pre ++ e.1) else none))))) fs := by
  induction es generalizing keys prefixes with
  | nil => exact .one (by simp [Pc.next])
  | cons e es ih =>
    obtain ⟨n, nd⟩ := e
    have hn := hes (n, nd) (by simp)
    have hr := ih fun e he => hes e (by simp [he])
    cases nd with
    | dir =>
      refine .step (pc1 := .listing pre p (es.map Prod.fst) keys (prefixes ++ [pre ++ n]) k) (fs1 := fs)
        (by simp [Pc.next, hn]) ?_
      have := hr keys (prefixes ++ [pre ++ n])
      simpa using this
    | file b =>
      refine .step (pc1 := .listing pre p (es.map Prod.fst) (keys ++ [pre ++ n]) prefixes k) (fs1 := fs)
        (by simp [Pc.next, hn]) ?_
      have := hr (keys ++ [pre ++ n]) prefixes
      simpa using this

theorem leads_listDir (hwf : fs.WF) (hnm : fs.Named) (pre : Str) (k : Outcome (List Str × List Str) → Prog α)
    (hp : Plain (h.loc pre)) :
    Leads h (.prog (.listDir pre k)) fs (.prog (k (storeListDir h pre fs).1)) (storeListDir h pre fs).2 := by
  obtain ⟨t, ht, hs⟩ := getPath_loc hp
  have h2 : (storeListDir h pre fs).2 = fs := rfl
  rw [h2]
  unfold storeListDir
  rw [M.read_apply, ht, Outcome.bind_ok, hs]
  cases hl : fs.locate (h.loc pre) with
  | err e => exact .one (by simp [Pc.next, ht, hs, hl])
  | panic => exact .one (by simp [Pc.next, ht, hs, hl])
  | ok l =>
    have := Fs.locate_plain_ok hp hl
    subst this
    cases hg : fs.get (h.loc pre) with
    | none => exact .one (by simp [Pc.next, ht, hs, hl, hg])
    | some n =>
      cases n with
      | file b => exact .one (by simp [Pc.next, ht, hs, hl, hg])
      | dir =>
        simp only [hg]
        refine .step (pc1 := .listing pre (h.loc pre) ((fs.children (h.loc pre)).map Prod.fst) [] [] k) (fs1 := fs)
          (by simp [Pc.next, ht, hs, hl, hg]) ?_
        have := leads_listing (h := h) (fs := fs) (pre := pre) (p := h.loc pre) (k := k) (fs.children (h.loc pre))
          (fun e he => by
            have he := (Fs.mem_children hwf (s := e.1) (n := e.2)).mp he
            rw [Fs.node_plain hwf (hnm _ _ he), he]) [] []
        simpa using this

/-! ## `erase_prefix` -/

theorem isPrefixOf_false {q l : Loc} (hc : ¬ q <+: l) : q.isPrefixOf l = false := by
  cases hb : q.isPrefixOf l with
  | false => rfl
  | true => exact absurd (List.isPrefixOf_iff_prefix.mp hb) hc

/-- How many entries there are at and below a location. -/
def size (fs : Fs) (q : Loc) : Nat := (fs.ents.filter fun e => q.isPrefixOf e.1).length

/-- The item for a node found in a directory. -/
def itemOf (q : List Str) (n : Node) : Item := if n = .dir then .open q else .file q

theorem filter_eq_filter {β : Type} {p q : β → Bool} {l : List β} (h : ∀ x ∈ l, p x = q x) :
    l.filter p = l.filter q := List.filter_congr h

theorem del_eq_delTree (hwf : fs.WF) {q : Loc} (hn : ∀ l, q <+: l → l ≠ q → fs.get l = none) :
    fs.del q = fs.delTree q := by
  unfold Fs.del Fs.delTree
  congr 1
  refine List.filter_congr fun e he => ?_
  have hg := hwf.mem_iff.mp he
  by_cases h1 : e.1 = q
  · simp [h1]
  · by_cases h2 : q <+: e.1
    · rw [hn _ h2 h1] at hg; simp at hg
    · simp [h1, isPrefixOf_false h2]

theorem size_delTree_le (fs : Fs) (q x : Loc) : size (fs.delTree x) q ≤ size fs q := by
  unfold size Fs.delTree
  rw [List.filter_filter]
  have : (fs.ents.filter fun e => q.isPrefixOf e.1 && !x.isPrefixOf e.1) =
      (fs.ents.filter fun e => q.isPrefixOf e.1).filter fun e => !x.isPrefixOf e.1 := by
    rw [List.filter_filter]
    exact List.filter_congr fun _ _ => Bool.and_comm _ _
  rw [this]
  exact List.length_filter_le _ _

theorem size_child_lt (hwf : fs.WF) {q : Loc} {s : Str} (hq : fs.get q ≠ none) : size fs (q ++ [s]) < size fs q := by
  obtain ⟨n, hn⟩ := Option.ne_none_iff_exists'.mp hq
  have hm := hwf.mem_iff.mpr hn
  unfold size
  have h1 : (fs.ents.filter fun e => (q ++ [s]).isPrefixOf e.1) =
      (fs.ents.filter fun e => q.isPrefixOf e.1).filter fun e => (q ++ [s]).isPrefixOf e.1 := by
    rw [List.filter_filter]
    refine List.filter_congr fun e _ => ?_
    by_cases hc : q ++ [s] <+: e.1
    · have : q <+: e.1 := (List.prefix_append _ _).trans hc
      simp [hc, this]
    · simp [hc]
  rw [h1]
  refine List.length_filter_lt_length_iff_exists.mpr ⟨(q, n), by simp [hm], ?_⟩
  simp only [List.isPrefixOf_iff_prefix]
  intro hc
  have := hc.length_le
  simp at this
  omega

/-- Everything at and below a list of names in a directory is gone. -/
def delNames (fs : Fs) (q : Loc) (es : List (Str × Node)) : Fs := es.foldl (fun f e => f.delTree (q ++ [e.1])) fs

theorem delNames_ents (q : Loc) (es : List (Str × Node)) (fs : Fs) :
    (delNames fs q es).ents = fs.ents.filter fun x => es.all fun e => !(q ++ [e.1]).isPrefixOf x.1 := by
  induction es generalizing fs with
  | nil => exact (List.filter_eq_self.mpr fun _ _ => rfl).symm
  | cons e es ih =>
    have : delNames fs q (e :: es) = delNames (fs.delTree (q ++ [e.1])) q es := rfl
    rw [this, ih, Fs.delTree, List.filter_filter]
    refine List.filter_congr fun x _ => ?_
    simp [Bool.and_comm]

theorem delNames_spec (q : Loc) (es : List (Str × Node)) (hwf : fs.WF) (hnm : fs.Named) :
    (delNames fs q es).WF ∧ (delNames fs q es).Named := by
  induction es generalizing fs with
  | nil => exact ⟨hwf, hnm⟩
  | cons e es ih => exact ih (hwf.delTree (by simp)) (hnm.delTree _)

theorem leads_item (p : List Str) (k : Outcome Bool → Prog α) (n : Nat) : ∀ (fs : Fs) (q : Loc) (nd : Node)
    (r : List Item), fs.WF → fs.Named → Plain q → q ≠ [] → fs.get q = some nd → size fs q ≤ n →
    Leads h (.walk p (itemOf q nd :: r) k) fs (.walk p r k) (fs.delTree q) := by
  induction n with
  | zero =>
    intro fs q nd r hwf _ _ _ hg hsz
    exfalso
    have : (q, nd) ∈ fs.ents.filter fun e => q.isPrefixOf e.1 := by
      simp [hwf.mem_iff.mpr hg]
    have := List.length_pos_of_mem this
    unfold size at hsz
    omega
  | succ n ih =>
    intro fs q nd r hwf hnm hp hne hg hsz
    have hloc : fs.locate q = .ok q := Fs.locate_of_get hwf hp hg
    cases nd with
    | file b =>
      have hi : itemOf q (.file b) = .file q := rfl
      rw [hi]
      refine .step (pc1 := .walkLock p q q r k) (fs1 := fs) (by simp [Pc.next, hloc, hg]) ?_
      refine .step (pc1 := .walkUnlink p q q r k) (fs1 := fs) (by simp [Pc.next]) ?_
      refine .one ?_
      rw [← del_eq_delTree hwf (q := q) fun l h1 h2 => hwf.none_below_file h1 (Ne.symm h2) hg]
      simp [Pc.next, hloc, hg]
    | dir =>
      have hi : itemOf q .dir = .open q := rfl
      rw [hi]
      refine .step (pc1 := .walk p ((fs.children q).map (fun e => itemOf (q ++ [e.1]) e.2) ++ .rmdir q :: r) k)
        (fs1 := fs) (by simp [Pc.next, hloc, hg, itemOf]) ?_
      -- the children
      have hch : ∀ (es : List (Str × Node)) (f : Fs), f.WF → f.Named → f.get q = some .dir →
          (es.Pairwise fun a b => a.1 ≠ b.1) →
          (∀ e ∈ es, f.get (q ++ [e.1]) = some e.2) → (∀ x, size f x ≤ size fs x) →
          Leads h (.walk p (es.map (fun e => itemOf (q ++ [e.1]) e.2) ++ .rmdir q :: r) k) f
            (.walk p (.rmdir q :: r) k) (delNames f q es) := by
        intro es
        induction es with
        | nil => intro f _ _ _ _ _ _; exact .refl ..
        | cons e es ihe =>
          intro f hf hfn hfq hnd hfe hfs
          have hlt : size fs (q ++ [e.1]) < size fs q := size_child_lt hwf (by rw [hg]; simp)
          have hge := hfe e (by simp)
          have h1 := ih f (q ++ [e.1]) e.2 (es.map (fun e => itemOf (q ++ [e.1]) e.2) ++ .rmdir q :: r) hf hfn
            (hfn _ _ hge) (by simp) hge (by have := hfs (q ++ [e.1]); omega)
          refine h1.trans (ihe (f.delTree (q ++ [e.1])) (hf.delTree (by simp)) (hfn.delTree _) ?_ ?_ ?_ ?_)
          · rw [Fs.get_delTree, if_neg, hfq]
            intro hc; have := hc.length_le; simp at this; omega
          · exact (List.pairwise_cons.mp hnd).2
          · intro e' he'
            rw [Fs.get_delTree, if_neg, hfe e' (by simp [he'])]
            intro hc
            have := List.append_inj' (hc.eq_of_length (by simp)) rfl
            exact (List.pairwise_cons.mp hnd).1 e' he' (by simpa using this.2)
          · intro x
            exact Nat.le_trans (size_delTree_le f x _) (hfs x)
      refine (hch (fs.children q) fs hwf hnm hg (children_nodup hwf q)
        (fun e he => (Fs.mem_children hwf (s := e.1) (n := e.2)).mp he) fun _ => Nat.le_refl _).trans ?_
      obtain ⟨w1, w2⟩ := delNames_spec q (fs.children q) hwf hnm
      -- what is left
      have hents : (delNames fs q (fs.children q)).ents = fs.ents.filter fun x => !(q.isPrefixOf x.1 && decide (x.1 ≠ q)) := by
        rw [delNames_ents]
        refine List.filter_congr fun x hx => ?_
        have hgx := hwf.mem_iff.mp hx
        rw [Bool.eq_iff_iff]
        simp only [List.all_eq_true, Bool.not_eq_true', Bool.and_eq_false_iff, decide_eq_false_iff_not, Decidable.not_not]
        constructor
        · intro hall
          by_cases hpre : q <+: x.1
          · right
            refine Classical.byContradiction fun hxq => ?_
            obtain ⟨t, ht⟩ := hpre
            cases t with
            | nil => exact hxq (by rw [← ht]; simp)
            | cons s t =>
              have hpre' : q ++ [s] <+: x.1 := ⟨t, by rw [← ht]; simp⟩
              obtain ⟨m, hm⟩ : ∃ m, fs.get (q ++ [s]) = some m := by
                by_cases he : q ++ [s] = x.1
                · exact ⟨x.2, by rw [he]; exact hgx⟩
                · exact ⟨.dir, hwf.dir_of_prefix hpre' he hgx⟩
              have := hall (s, m) ((Fs.mem_children hwf).mpr hm)
              rw [List.isPrefixOf_iff_prefix.mpr hpre'] at this
              exact absurd this (by simp)
          · left; exact isPrefixOf_false hpre
        · intro hor e he
          rcases hor with hor | hor
          · cases hc : (q ++ [e.1]).isPrefixOf x.1 with
            | false => rfl
            | true =>
              rw [List.isPrefixOf_iff_prefix] at hc
              have : q <+: x.1 := (List.prefix_append _ _).trans hc
              rw [← List.isPrefixOf_iff_prefix, hor] at this
              simp at this
          · cases hc : (q ++ [e.1]).isPrefixOf x.1 with
            | false => rfl
            | true =>
              rw [List.isPrefixOf_iff_prefix, hor] at hc
              have := hc.length_le
              simp at this
              omega
      have hget : ∀ l, (delNames fs q (fs.children q)).get l = if q <+: l ∧ l ≠ q then none else fs.get l := by
        intro l
        have := Fs.lookup_filter fs.ents (fun x => !(q.isPrefixOf x && decide (x ≠ q))) l
        unfold Fs.get
        rw [hents, this]
        by_cases hc : q <+: l ∧ l ≠ q
        · rw [if_pos hc, List.isPrefixOf_iff_prefix.mpr hc.1]; simp [hc.2]
        · rw [if_neg hc]
          by_cases h1 : q <+: l
          · have : l = q := Decidable.not_not.mp fun h2 => hc ⟨h1, h2⟩
            simp [this]
          · have := isPrefixOf_false h1
            simp [this]
      have hgq : (delNames fs q (fs.children q)).get q = some .dir := by rw [hget]; simp [hg]
      have hlq := Fs.locate_of_get w1 hp hgq
      have hcq : (delNames fs q (fs.children q)).children q = [] := by
        rw [List.eq_nil_iff_forall_not_mem]
        rintro ⟨s, m⟩ hm
        have := (Fs.mem_children w1).mp hm
        rw [hget, if_pos ⟨List.prefix_append _ _, by simp⟩] at this
        simp at this
      refine .one ?_
      have hfin : (delNames fs q (fs.children q)).del q = fs.delTree q := by
        unfold Fs.del Fs.delTree
        rw [hents, List.filter_filter]
        congr 1
        refine List.filter_congr fun x _ => ?_
        by_cases h1 : x.1 = q
        · simp [h1]
        · simp [h1]
      simp only [Pc.next, Fs.rmdir, hlq, hgq, hcq]
      rw [if_neg (by simp [hne]), hfin]

theorem leads_erasePrefix (hwf : fs.WF) (hnm : fs.Named) (key : Str) (k : Outcome Bool → Prog α)
    (hp : Plain (h.loc key)) (hne : h.loc key ≠ []) :
    Leads h (.prog (.erasePrefix key k)) fs (.prog (k (storeErasePrefix h key fs).1)) (storeErasePrefix h key fs).2 := by
  obtain ⟨t, ht, hs⟩ := getPath_loc hp
  have hpe : fs.pathExists (h.loc key) = (fs.get (h.loc key)).isSome := by
    simp [Fs.pathExists, Fs.node_plain hwf hp]
  cases hg : fs.get (h.loc key) with
  | none =>
    rw [hg] at hpe
    have hb : storeErasePrefix h key fs = (.ok true, fs) := by
      unfold storeErasePrefix
      rw [ht]
      simp only [hs]
      cases hl : fs.locate (h.loc key) with
      | ok l => have := Fs.locate_plain_ok hp hl; subst this; simp [hg]
      | err e => rfl
      | panic => rfl
    rw [hb]
    refine .step (pc1 := .walk (h.loc key) [] k) (fs1 := fs) (by simp [Pc.next, ht, hs, hpe]) (.one ?_)
    simp [Pc.next, hpe]
  | some n =>
    rw [hg] at hpe
    have hl := Fs.locate_of_get hwf hp hg
    have hb : storeErasePrefix h key fs =
        (.ok (!(fs.delTree (h.loc key)).pathExists (h.loc key)), fs.delTree (h.loc key)) := by
      unfold storeErasePrefix
      rw [ht]
      simp only [hs, hl, hg]
    rw [hb]
    refine .step (pc1 := .walk (h.loc key) [.stat (h.loc key)] k) (fs1 := fs) (by simp [Pc.next, ht, hs, hpe]) ?_
    refine .step (pc1 := .walk (h.loc key) [itemOf (h.loc key) n] k) (fs1 := fs) ?_ ?_
    · cases n <;> simp [Pc.next, hl, hg, itemOf]
    · exact (leads_item (h.loc key) k _ fs (h.loc key) n [] hwf hnm hp hne hg (Nat.le_refl _)).trans
        (.one (by simp [Pc.next]))

/-! ## Programs -/

/-- A program run alone, step by step, ends as it does call by call. -/
theorem solo {N V W : Loc → Prop} (hW : ¬ W []) (P : Prog α) : ∀ fs : Fs, fs.WF → fs.Named → P.Uses h N V W →
    Leads h (.prog P) fs (.prog (.done (P.run h fs).1)) (P.run h fs).2 := by
  induction P with
  | done r => intro fs _ _ _; exact .refl ..
  | «exists» key k ih =>
    intro fs hwf hnm hu
    exact (leads_exists key k).trans (ih _ fs hwf hnm (hu.2.2 _))
  | get key k ih =>
    intro fs hwf hnm hu
    exact (leads_get key k).trans (ih _ fs hwf hnm (hu.2.2 _))
  | set key v k ih =>
    intro fs hwf hnm hu
    exact (leads_set key v k).trans (ih _ _ (storeSet_frame hwf hu.1 (Prod.eta _).symm).1
      (storeSet_named hwf hnm hu.1) (hu.2.2 _))
  | erase key k ih =>
    intro fs hwf hnm hu
    exact (leads_erase key k).trans (ih _ _ (storeErase_frame hwf hu.1 (Prod.eta _).symm).1
      (storeErase_named hwf hnm hu.1) (hu.2.2 _))
  | erasePrefix key k ih =>
    intro fs hwf hnm hu
    have hne : h.loc key ≠ [] := fun e => hW (e ▸ hu.2.1)
    obtain ⟨fs', e1, e2, _⟩ := storeErasePrefix_spec (h := h) (key := key) hwf hu.1 hne
    refine (leads_erasePrefix hwf hnm key k hu.1 hne).trans (ih _ _ (by rw [e1]; exact e2)
      (storeErasePrefix_named hwf hnm hu.1 hne) (hu.2.2 _))
  | listDir key k ih =>
    intro fs hwf hnm hu
    exact (leads_listDir hwf hnm key k hu.1).trans (ih _ fs hwf hnm (hu.2.2 _))

end

end Wide

end Zarr
