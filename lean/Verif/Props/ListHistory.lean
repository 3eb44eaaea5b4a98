import Verif.Props.SharedThreads
import Verif.Props.ListingExact
import Verif.Lemmas.CrashCalls
/-!
# Listings in histories: C108
-/

namespace Zarr

open Spec

/-! ## The specification -/

/-- The path at which a call creates a node that was not there. -/
def Spec.BCall.makes (a : AbsHier) : BCall → Option (List Str)
  | .call (.createGroup p) => if (a.node (segs p)).isNone then some (segs p) else none
  | .call (.createArray p _) => if (a.node (segs p)).isNone then some (segs p) else none
  | _ => none

/-- The paths at which a history has created nodes, whether or not they are still there. -/
def Spec.madePaths (md : List Str → ArrayMetadata) (fill : List Str → (t : RsType) → El t) :
    List BCall → AbsHier → List (List Str)
  | [], _ => []
  | c :: cs, a => (c.makes a).toList ++ madePaths md fill cs (c.abs md fill a).2

/-- A path below another one. -/
def Spec.Below (p q : List Str) : Prop := p <+: q ∧ p ≠ q

section
variable {fam : Env → Prop} {h : Hier} {md : List Str → ArrayMetadata} {fill : List Str → (t : RsType) → El t}

/-- The metadata tree: its directories are those above created nodes, its files are documents. -/
structure MetaTree (h : Hier) (a : AbsHier) (made : List (List Str)) (fs : Fs) : Prop where
  dirs : ∀ x, fs.get (segs h.base ++ str!"meta" :: str!"root" :: x) = some .dir ↔ ∃ q ∈ made, Below x q
  files : ∀ x b, fs.get (segs h.base ++ str!"meta" :: str!"root" :: x) = some (.file b) →
    ∃ p kind, OrdinaryPath h p ∧ (kind = str!"array" ∨ kind = str!"group") ∧
      segs h.base ++ str!"meta" :: str!"root" :: x = docLoc h kind p
  node : ∀ q n, a.node q = some n → q ∈ made
  made : ∀ q ∈ made, ∃ p, OrdinaryPath h p ∧ segs p = q

theorem MetaTree.fresh {fs : Fs} (hf : FreshDir h fs) : MetaTree h AbsHier.empty [] fs where
  dirs x := by
    rw [hf.1 _ _ rfl (by simp) (by simp)]; simp
  files x b hx := by
    rw [hf.1 _ _ rfl (by simp) (by simp)] at hx; simp at hx
  node := by simp [AbsHier.empty]
  made := by simp

namespace Wide

/-- What one call changes. -/
theorem frame_step {env : Env} {c : BCall} {fs : Fs} (hwf : fs.WF) (hnm : fs.Named) (hc : Clear h md fs)
    (hb : Plain (segs h.base)) (hsfx : GoodSuffix h.entry)
    (hdot : '.' ∉ stripDot h.entry.metadataKeySuffix) (hs : ∀ q, GoodSep (md q).separator)
    (hf : (WCall.call c).Fits h md) (l : Loc) (hl : ¬ Under (threadWrites h md [.call c]) l) :
    (c.run env h md fs).2.get l = fs.get l ∨
      (fs.get l = none ∧ (c.run env h md fs).2.get l = some .dir ∧ ∃ w ∈ threadWrites h md [.call c], l <+: w) := by
  have S := separate (css := [(env, [c])]) hwf hnm hc hb hsfx hdot hs (by simpa using hf) (by
    intro i j x x' hi hj hij
    have h1 := (List.getElem?_eq_some_iff.mp hi).1
    have h2 := (List.getElem?_eq_some_iff.mp hj).1
    simp only [List.length_singleton] at h1 h2
    omega)
  obtain ⟨ms0, I0⟩ := Inv.init S
  obtain ⟨ts, hts⟩ := Wide.serial S
  obtain ⟨ms1, I1, _⟩ := I0.run S ts hts
  have := I1.frame l (fun i hi => by
    have : i = 0 := by simpa using hi
    subst this
    exact hl)
  rw [runAll_machines] at this
  rcases this with h1 | ⟨h1, h2, i, hi, w, hw, h3⟩
  · exact .inl h1
  · have : i = 0 := by simpa using hi
    subst this
    exact .inr ⟨h1, h2, w, hw, h3⟩

/-- The calls that change documents. -/
theorem write_meta {c : BCall} (hf : (WCall.call c).Fits h md) {w : Loc} (hw : w ∈ threadWrites h md [.call c]) :
    (∃ x, w = segs h.base ++ str!"data" :: x) ∨
    ((w = docLoc h str!"array" (WCall.call c).path ∨ w = docLoc h str!"group" (WCall.call c).path) ∧
      ((∃ p, c = .call (.createGroup p)) ∨ (∃ p m, c = .call (.createArray p m)) ∨
        (∃ p b, c = .call (.setAttributes p b)) ∨ ∃ p, c = .call (.remove p))) := by
  obtain ⟨c', h1, h2⟩ := List.mem_flatMap.mp hw
  obtain ⟨h1, hch⟩ := List.mem_filter.mp h1
  simp only [List.mem_singleton] at h1
  subst h1
  have hcases : (WCall.call c).Touches md (.docs (segs (WCall.call c).path)) →
      ((∃ p, c = .call (.createGroup p)) ∨ (∃ p m, c = .call (.createArray p m)) ∨
        (∃ p b, c = .call (.setAttributes p b)) ∨ ∃ p, c = .call (.remove p)) := by
    intro ht
    cases c with
    | readBox p t b => cases hch
    | writeBox p t o a => obtain ⟨pos, _, e⟩ := ht; cases e
    | call c =>
      cases c with
      | createGroup p => exact .inl ⟨p, rfl⟩
      | createArray p m => exact .inr (.inl ⟨p, m, rfl⟩)
      | setAttributes p b => exact .inr (.inr (.inl ⟨p, b, rfl⟩))
      | remove p => exact .inr (.inr (.inr ⟨p, rfl⟩))
      | writeChunk p t c => cases ht
      | deleteChunk p pos => cases ht
      | _ => cases hch
  cases rootKind hf h2 with
  | array h3 h4 => exact .inr ⟨.inl rfl, hcases h4⟩
  | group h3 h4 => exact .inr ⟨.inr rfl, hcases h4⟩
  | spot _ h3 => rw [hch] at h3; cases h3
  | below _ h3 => rw [hch] at h3; cases h3
  | data h3 => exact .inl ⟨_, rfl⟩
  | chunk pos h3 h4 => exact .inl (chunkLoc_head h _ _ _)

end Wide

/-- A directory above a document is above its node. -/
theorem below_doc {kind p : Str} {x : List Str} (hp : segs h.base ++ str!"meta" :: str!"root" :: x <+: docLoc h kind p)
    (hne : segs h.base ++ str!"meta" :: str!"root" :: x ≠ docLoc h kind p) : Below x (segs p) := by
  obtain ⟨i, a, e1, e2⟩ := Wide.meta_doc_split h kind p
  rw [e2, ← List.append_assoc] at hp hne
  rcases Wide.prefix_snoc hp with e | hp
  · exact absurd e hne
  · have h1 : segs h.base ++ i ++ [a] = segs h.base ++ str!"meta" :: str!"root" :: segs p := by
      rw [List.append_assoc, ← e1]; rfl
    have h2 : segs h.base ++ str!"meta" :: str!"root" :: x <+: segs h.base ++ str!"meta" :: str!"root" :: segs p := by
      rw [← h1]; exact hp.trans (List.prefix_append _ _)
    have h3 : (segs h.base ++ str!"meta" :: str!"root" :: x).length < (segs h.base ++ str!"meta" :: str!"root" :: segs p).length := by
      rw [← h1]
      have := hp.length_le
      simp only [List.length_append, List.length_cons, List.length_nil] at this ⊢
      omega
    refine ⟨by simpa using h2, ?_⟩
    rintro rfl
    omega

theorem doc_below {kind p : Str} {x : List Str} (hx : Below x (segs p)) :
    segs h.base ++ str!"meta" :: str!"root" :: x <+: docLoc h kind p ∧
    segs h.base ++ str!"meta" :: str!"root" :: x ≠ docLoc h kind p := by
  obtain ⟨i, a, e1, e2⟩ := Wide.meta_doc_split h kind p
  obtain ⟨hx, hne⟩ := hx
  have h1 : segs h.base ++ i ++ [a] = segs h.base ++ str!"meta" :: str!"root" :: segs p := by
    rw [List.append_assoc, ← e1]; rfl
  have h2 : segs h.base ++ str!"meta" :: str!"root" :: x <+: segs h.base ++ i ++ [a] := by
    rw [h1]; simpa using hx
  rcases Wide.prefix_snoc h2 with e | h2
  · rw [h1] at e
    exact absurd (by simpa using e) hne
  · rw [e2, ← List.append_assoc]
    refine ⟨h2.trans (List.prefix_append _ _), fun e => ?_⟩
    rw [e] at h2
    have := h2.length_le
    simp at this
    omega

theorem meta_not_data {x y : List Str} : ¬ segs h.base ++ str!"data" :: y <+: segs h.base ++ str!"meta" :: x ∧
    ¬ segs h.base ++ str!"meta" :: x <+: segs h.base ++ str!"data" :: y :=
  ⟨Wide.head_apart (by decide), Wide.head_apart (by decide)⟩

/-- No entry lies below a document, nor is a document a directory. -/
theorem doc_leaf {fs : Fs} (hwf : fs.WF) (hc : Clear h md fs) {kind p : Str} (hk : kind = str!"array" ∨ kind = str!"group")
    (hp : OrdinaryPath h p) {l : Loc} (hl : docLoc h kind p <+: l) {n : Node} (hn : fs.get l = some n) :
    l = docLoc h kind p ∧ n ≠ .dir := by
  have hf : FileLoc h md (docLoc h kind p) := by
    rcases hk with rfl | rfl
    · exact .array p hp
    · exact .group p hp
  have h1 := (hc _ hf).2
  by_cases e : docLoc h kind p = l
  · subst e
    refine ⟨rfl, ?_⟩
    rintro rfl
    exact h1 hn
  · exact absurd (hwf.dir_of_prefix hl e hn) h1

theorem docs_node {env : Env} {a : AbsHier} {fs : Fs} (hh : Holds env h md a fs) {p : Str} (hp : OrdinaryPath h p) :
    ((arrayDoc h fs p).isSome = true ∨ (groupDoc h fs p).isSome = true) ↔ (a.node (segs p)).isSome = true := by
  have := hh.docs p hp
  cases hn : a.node (segs p) with
  | none => rw [hn] at this; simp [this.1, this.2]
  | some n =>
    cases n with
    | group ats =>
      rw [hn] at this
      obtain ⟨_, b, kvs, o, h1, _⟩ := this
      simp [h1]
    | array m ats =>
      rw [hn] at this
      obtain ⟨_, b, kvs, m', h1, _⟩ := this
      simp [h1]

theorem content_some {fs : Fs} {l : Loc} : (fs.content l).isSome = true ↔ ∃ b, fs.get l = some (.file b) := by
  unfold Fs.content
  cases h : fs.get l with
  | none => simp
  | some n => cases n <;> simp

/-- One call. -/
theorem MetaTree.step (hT : Together md fam) (hb : Plain (segs h.base))
    (hsfx : GoodSuffix h.entry) (hdot : '.' ∉ stripDot h.entry.metadataKeySuffix)
    (hs : ∀ q, GoodSep (md q).separator) {a : AbsHier} {made : List (List Str)} {fs : Fs}
    (hh : Wide.Keeps fam h md a fs) (ht : MetaTree h a made fs) {env : Env} {c : BCall}
    (hok : fam env ∧ c.Ok env h md fill ∧ c.Known fam) :
    MetaTree h (c.abs md fill a).2 (made ++ (c.makes a).toList) (c.run env h md fs).2 := by
  have hfit := hok.2.1.fits
  have hwf := hh.shared.wf
  have hcl := hh.shared.clear
  obtain ⟨hres, hsh⟩ := hh.shared.step hT hb hsfx hdot hs hok
  have hfr := Wide.frame_step (env := env) hwf hh.named hcl hb hsfx hdot hs hfit
  have hp := Wide.fits_path hfit
  have hwf' := hsh.wf
  have hcl' := hsh.clear
  -- a metadata location below something that the call writes is a document
  have hunder : ∀ x n f, Fs.WF f → Clear h md f → f.get (segs h.base ++ str!"meta" :: str!"root" :: x) = some n →
      Wide.Under (Wide.threadWrites h md [.call c]) (segs h.base ++ str!"meta" :: str!"root" :: x) →
      n ≠ .dir ∧ ∃ kind, (kind = str!"array" ∨ kind = str!"group") ∧
        segs h.base ++ str!"meta" :: str!"root" :: x = docLoc h kind (WCall.call c).path := by
    rintro x n f hwf hcl hg ⟨w, hw, hwx⟩
    rcases Wide.write_meta hfit hw with ⟨y, rfl⟩ | ⟨e, _⟩
    · exact absurd hwx meta_not_data.1
    · rcases e with rfl | rfl
      · obtain ⟨h1, h2⟩ := doc_leaf hwf hcl (.inl rfl) hp hwx hg
        exact ⟨h2, _, .inl rfl, h1⟩
      · obtain ⟨h1, h2⟩ := doc_leaf hwf hcl (.inr rfl) hp hwx hg
        exact ⟨h2, _, .inr rfl, h1⟩
  -- nodes and paths
  have hmakes : ∀ q, c.makes a = some q → q = segs (WCall.call c).path := by
    intro q hq
    unfold BCall.makes at hq
    split at hq
    · split at hq <;> simp at hq; exact hq.symm
    · split at hq <;> simp at hq; exact hq.symm
    · simp at hq
  have hmade : ∀ q, q ∈ made ++ (c.makes a).toList ↔ q ∈ made ∨ c.makes a = some q := by
    intro q; simp [Option.mem_toList]
  have hnode : ∀ q n, (c.abs md fill a).2.node q = some n → q ∈ made ∨ c.makes a = some q := by
    intro q n hq
    by_cases hold : ∃ n', a.node q = some n'
    · obtain ⟨n', hold⟩ := hold
      exact .inl (ht.node q n' hold)
    · have hnone : a.node q = none := by
        cases e : a.node q with
        | none => rfl
        | some n' => exact absurd ⟨n', e⟩ hold
      refine .inr ?_
      have hput : ∀ p n', (a.put (segs p) n').node q = some n → q = segs p := by
        intro p n' e
        by_cases eq : q = segs p
        · exact eq
        · simp only [AbsHier.put, if_neg eq, hnone] at e; cases e
      have hkeep : a.node q ≠ some n := by rw [hnone]; simp
      cases c with
      | readBox p t b => exact absurd hq hkeep
      | writeBox p t o ar => exact absurd hq hkeep
      | call c =>
        cases c with
        | createGroup p =>
          simp only [BCall.abs, HCall.abs] at hq
          cases e : a.node (segs p) with
          | none =>
            rw [e] at hq
            simp [BCall.makes, e, hput p _ hq]
          | some n' => rw [e] at hq; cases n' <;> exact absurd hq hkeep
        | createArray p m =>
          simp only [BCall.abs, HCall.abs] at hq
          cases e : a.node (segs p) with
          | none =>
            rw [e] at hq
            simp [BCall.makes, e, hput p _ hq]
          | some n' => rw [e] at hq; exact absurd hq hkeep
        | setAttributes p b =>
          simp only [BCall.abs, HCall.abs] at hq
          cases e : a.node (segs p) with
          | none => rw [e] at hq; exact absurd hq hkeep
          | some n' =>
            rw [e] at hq
            cases n' <;> (have := hput p _ hq; subst this; rw [hnone] at e; cases e)
        | remove p =>
          simp only [BCall.abs, HCall.abs] at hq
          split at hq
          · cases hq
          · exact absurd hq hkeep
        | writeChunk p t c => exact absurd hq hkeep
        | deleteChunk p pos => exact absurd hq hkeep
        | nodeExists p => exact absurd hq hkeep
        | arrayExists p =>
          simp only [BCall.abs, HCall.abs] at hq
          split at hq <;> exact absurd hq hkeep
        | getArrayMetadata p =>
          simp only [BCall.abs, HCall.abs] at hq
          split at hq <;> exact absurd hq hkeep
        | listAttributes p =>
          simp only [BCall.abs, HCall.abs] at hq
          split at hq <;> exact absurd hq hkeep
        | readChunk p t pos => exact absurd hq hkeep
  refine ⟨fun x => ⟨fun hx => ?_, ?_⟩, fun x b hx => ?_, fun q n hq => (hmade q).mpr (hnode q n hq), fun q hq => ?_⟩
  · by_cases hu : Wide.Under (Wide.threadWrites h md [.call c]) (segs h.base ++ str!"meta" :: str!"root" :: x)
    · exact absurd rfl (hunder x _ _ hwf' hcl' hx hu).1
    · rcases hfr _ hu with e | ⟨e1, e2, w, hw, hxw⟩
      · rw [hx] at e
        obtain ⟨q, h1, h2⟩ := (ht.dirs x).mp e.symm
        exact ⟨q, (hmade q).mpr (.inl h1), h2⟩
      · rcases Wide.write_meta hfit hw with ⟨y, rfl⟩ | ⟨e, hc⟩
        · exact absurd hxw meta_not_data.2
        · have hbelow : Below x (segs (WCall.call c).path) := by
            have hne : segs h.base ++ str!"meta" :: str!"root" :: x ≠ w := fun e =>
              hu ⟨w, hw, e ▸ List.prefix_rfl⟩
            rcases e with rfl | rfl
            · exact below_doc hxw hne
            · exact below_doc hxw hne
          refine ⟨segs (WCall.call c).path, (hmade _).mpr ?_, hbelow⟩
          cases en : a.node (segs (WCall.call c).path) with
          | some n => exact .inl (ht.node _ n en)
          | none =>
            rcases hc with ⟨p, rfl⟩ | ⟨p, m, rfl⟩ | ⟨p, b, rfl⟩ | ⟨p, rfl⟩
            · simp only [WCall.path] at en ⊢
              simp [BCall.makes, en]
            · simp only [WCall.path] at en ⊢
              simp [BCall.makes, en]
            · simp only [WCall.path] at en
              simp only [BCall.run, HCall.run, BCall.abs, HCall.abs, en] at hres e2
              rcases setAttributes_state env h p b fs with e | ⟨fs', e⟩
              · rw [e, e1] at e2; cases e2
              · rw [e] at hres; simp at hres
            · obtain ⟨fs', h1, _, h2⟩ := remove_spec (path := p) hwf hb hsfx hp.plain (hcl _ (.group p hp)).2 (hcl _ (.array p hp)).2
              simp only [BCall.run, HCall.run, h1] at e2
              rw [h2, e1] at e2
              simp at e2
  · rintro ⟨q, hq, hxq⟩
    rcases (hmade q).mp hq with hq | hq
    · have hx := (ht.dirs x).mpr ⟨q, hq, hxq⟩
      have hu : ¬ Wide.Under (Wide.threadWrites h md [.call c]) (segs h.base ++ str!"meta" :: str!"root" :: x) :=
        fun hu => (hunder x _ _ hwf hcl hx hu).1 rfl
      rcases hfr _ hu with e | ⟨e, _⟩
      · rw [e, hx]
      · rw [hx] at e; cases e
    · have hn : ((c.abs md fill a).2.node (segs (WCall.call c).path)).isSome = true := by
        unfold BCall.makes at hq
        split at hq
        · split at hq
          · rename_i p e
            simp only [WCall.path, BCall.abs, HCall.abs, Option.isNone_iff_eq_none.mp e]
            simp [AbsHier.put]
          · cases hq
        · split at hq
          · rename_i p m e
            simp only [WCall.path, BCall.abs, HCall.abs, Option.isNone_iff_eq_none.mp e]
            simp [AbsHier.put]
          · cases hq
        · cases hq
      rw [hmakes q hq] at hxq
      rcases (docs_node (hsh.holds env hok.1) hp).mpr hn with hd | hd
      · obtain ⟨b, hd⟩ := content_some.mp hd
        exact hwf'.dir_of_prefix (doc_below hxq).1 (doc_below hxq).2 hd
      · obtain ⟨b, hd⟩ := content_some.mp hd
        exact hwf'.dir_of_prefix (doc_below hxq).1 (doc_below hxq).2 hd
  · by_cases hu : Wide.Under (Wide.threadWrites h md [.call c]) (segs h.base ++ str!"meta" :: str!"root" :: x)
    · obtain ⟨_, kind, h1, h2⟩ := hunder x _ _ hwf' hcl' hx hu
      exact ⟨_, kind, hp, h1, h2⟩
    · rcases hfr _ hu with e | ⟨_, e, _⟩
      · rw [hx] at e
        exact ht.files x b e.symm
      · rw [hx] at e; cases e
  · rcases (hmade q).mp hq with hq | hq
    · exact ht.made q hq
    · exact ⟨_, hp, (hmakes q hq).symm⟩

/-- A history of calls. -/
theorem MetaTree.history (hT : Together md fam) (hb : Plain (segs h.base))
    (hsfx : GoodSuffix h.entry) (hdot : '.' ∉ stripDot h.entry.metadataKeySuffix)
    (hs : ∀ q, GoodSep (md q).separator) {a : AbsHier} {made : List (List Str)} {fs : Fs}
    (hh : Wide.Keeps fam h md a fs) (ht : MetaTree h a made fs) (calls : List (Env × BCall))
    (hok : ∀ x ∈ calls, fam x.1 ∧ x.2.Ok x.1 h md fill ∧ x.2.Known fam) :
    MetaTree h (bAbsState md fill (calls.map (·.2)) a) (made ++ madePaths md fill (calls.map (·.2)) a)
      (mState h md calls fs) := by
  induction calls generalizing a made fs with
  | nil =>
    rw [List.map_nil, madePaths, List.append_nil]
    exact ht
  | cons x xs ih =>
    have hx := hok x (List.mem_cons_self ..)
    have := ih (Wide.sound_history hT hb hsfx hdot hs hh [x] (by simpa using hx)) (ht.step hT hb hsfx hdot hs hh hx)
      fun y hy => hok y (List.mem_cons_of_mem _ hy)
    rw [List.append_assoc] at this
    exact this

/-- The name of a document in the metadata tree. -/
theorem doc_name {kind p : Str} {x : List Str} (he : segs h.base ++ str!"meta" :: str!"root" :: x = docLoc h kind p) :
    ∃ i n, segs p = i ++ [n] ∧ x = i ++ [n ++ ('.' :: kind ++ '.' :: stripDot h.entry.metadataKeySuffix)] := by
  rw [docLoc_eq] at he
  have he := List.append_cancel_left he
  rcases List.eq_nil_or_concat (segs p) with e | ⟨i, n, e⟩
  · rw [e, show ([str!"meta", str!"root"] : List Str) = [str!"meta"] ++ [str!"root"] from rfl,
      extLast_append_singleton] at he
    simp only [List.cons_append, List.nil_append, List.cons.injEq, true_and] at he
    have := congrArg List.length he.1
    simp [metaExt] at this
  · rw [List.concat_eq_append] at e
    refine ⟨i, n, e, ?_⟩
    rw [e, show str!"meta" :: str!"root" :: (i ++ [n]) = (str!"meta" :: str!"root" :: i) ++ [n] from rfl,
      extLast_append_singleton] at he
    simpa [metaExt] using he

theorem name_doc {kind p n : Str} {i : List Str} (he : segs p = i ++ [n]) :
    docLoc h kind p = segs h.base ++ str!"meta" :: str!"root" ::
      (i ++ [n ++ ('.' :: kind ++ '.' :: stripDot h.entry.metadataKeySuffix)]) := by
  rw [docLoc_eq, he, show str!"meta" :: str!"root" :: (i ++ [n]) = (str!"meta" :: str!"root" :: i) ++ [n] from rfl,
    extLast_append_singleton]
  simp [metaExt]

/-- No file lies on the way to the documents of the children of a path. -/
theorem MetaTree.dirable {a : AbsHier} {made : List (List Str)} {fs : Fs} (ht : MetaTree h a made fs)
    (hcl : Clear h md fs) {p : Str} (hp : OrdinaryPath h p) : fs.dirable (metaDir h p) := by
  intro l hl b hg
  have hsplit : l <+: segs h.base ++ [str!"meta"] ∨
      ∃ x, x <+: segs p ∧ l = segs h.base ++ str!"meta" :: str!"root" :: x := by
    have e : metaDir h p = (segs h.base ++ [str!"meta"]) ++ (str!"root" :: segs p) := by simp [metaDir]
    rw [e] at hl
    rcases List.prefix_or_prefix_of_prefix hl (List.prefix_append (segs h.base ++ [str!"meta"]) (str!"root" :: segs p)) with h1 | ⟨y, rfl⟩
    · exact .inl h1
    · rw [List.prefix_append_right_inj] at hl
      cases y with
      | nil => exact .inl (by simp)
      | cons z y =>
        rw [List.cons_prefix_cons] at hl
        obtain ⟨rfl, hl⟩ := hl
        exact .inr ⟨y, hl, by simp⟩
  rcases hsplit with h1 | ⟨x, hx, rfl⟩
  · have hnil : segs [] = [] := by decide
    have hord : OrdinaryPath h [] := by intro s hs; rw [hnil] at hs; cases hs
    have hd : docLoc h str!"array" [] = segs h.base ++ [str!"meta"] ++
        [str!"root" ++ ('.' :: str!"array" ++ '.' :: stripDot h.entry.metadataKeySuffix)] := by
      simp [docLoc, appendName, hnil, stripDot_eq]
    refine (hcl _ (.array [] hord)).1 l ?_ ?_ b hg
    · rw [hd]; exact h1.trans (List.prefix_append _ _)
    · rintro rfl
      rw [hd] at h1
      have := h1.length_le
      simp at this
  · obtain ⟨p', kind, _, hk, e⟩ := ht.files x b hg
    obtain ⟨i, n, _, rfl⟩ := doc_name e
    have := hp _ (hx.subset (List.mem_append_right _ (List.mem_singleton_self _)))
    rcases hk with rfl | rfl
    · exact this.array (List.suffix_append _ _)
    · exact this.group (List.suffix_append _ _)

/-- The documents in the directory of the children of a path are those of the children. -/
theorem MetaTree.child {env : Env} {a : AbsHier} {made : List (List Str)} {fs : Fs} (ht : MetaTree h a made fs)
    (hh : Holds env h md a fs) {p s : Str} :
    (∃ b, fs.get (metaDir h p ++ [s]) = some (.file b)) → ∃ n kind, (a.node (segs p ++ [n])).isSome = true ∧
      (kind = str!"array" ∨ kind = str!"group") ∧
      s = n ++ ('.' :: kind ++ '.' :: stripDot h.entry.metadataKeySuffix) := by
  have e : metaDir h p ++ [s] = segs h.base ++ str!"meta" :: str!"root" :: (segs p ++ [s]) := by simp [metaDir]
  rintro ⟨b, hb⟩
  rw [e] at hb
  obtain ⟨p', kind, hp', hk, e'⟩ := ht.files _ b hb
  obtain ⟨i, n, h1, h2⟩ := doc_name e'
  have h3 := List.append_inj' h2 rfl
  obtain ⟨rfl, h4⟩ := h3
  refine ⟨n, kind, ?_, hk, by simpa using h4⟩
  rw [← h1, ← docs_node hh hp']
  rw [e'] at hb
  rcases hk with rfl | rfl
  · exact .inl (content_some.mpr ⟨b, hb⟩)
  · exact .inr (content_some.mpr ⟨b, hb⟩)

theorem MetaTree.child_doc {env : Env} {a : AbsHier} {made : List (List Str)} {fs : Fs} (ht : MetaTree h a made fs)
    (hh : Holds env h md a fs) {p n : Str} (hn : (a.node (segs p ++ [n])).isSome = true) :
    ∃ kind, (kind = str!"array" ∨ kind = str!"group") ∧
      ∃ b, fs.get (metaDir h p ++ [n ++ ('.' :: kind ++ '.' :: stripDot h.entry.metadataKeySuffix)]) = some (.file b) := by
  obtain ⟨v, hv⟩ := Option.isSome_iff_exists.mp hn
  obtain ⟨p', hp', e⟩ := ht.made _ (ht.node _ v hv)
  have e' : ∀ s, metaDir h p ++ [s] = segs h.base ++ str!"meta" :: str!"root" :: (segs p ++ [s]) := by simp [metaDir]
  rw [← e] at hn
  rcases (docs_node hh hp').mpr hn with hd | hd
  · obtain ⟨b, hd⟩ := content_some.mp hd
    exact ⟨_, .inl rfl, b, by rw [e', ← name_doc e]; exact hd⟩
  · obtain ⟨b, hd⟩ := content_some.mp hd
    exact ⟨_, .inr rfl, b, by rw [e', ← name_doc e]; exact hd⟩

/-- The name that `list_nodes` makes of a document: that of the node without as many bytes as the suffix has. -/
theorem cut_doc {sfx n kind name : Str} (hk : kind = str!"array" ∨ kind = str!"group") (hpos : 0 < byteLen sfx) :
    Cut sfx (n ++ ('.' :: kind ++ sfx)) name ↔ ∃ r, n = name ++ r ∧ byteLen r = byteLen sfx := by
  have h6 : byteLen ('.' :: kind) = 6 := by rcases hk with rfl | rfl <;> decide
  constructor
  · rintro ⟨w, h1, h2⟩
    rw [← List.append_assoc] at h1
    have h1 := List.append_cancel_right h1
    rcases List.append_eq_append_iff.mp h1 with ⟨t, e1, e2⟩ | ⟨r, e1, e2⟩
    · have := congrArg byteLen e2
      rw [byteLen_append, h6] at this
      omega
    · refine ⟨r, e1, ?_⟩
      rw [e2, byteLen_append, h6] at h2
      omega
  · rintro ⟨r, rfl, h1⟩
    exact ⟨r ++ '.' :: kind, by simp, by rw [byteLen_append, h6, h1]⟩

end

/-- Below a path whose directory is missing there is nothing to list. -/
theorem MetaTree.missing {env : Env} {h : Hier} {md : List Str → ArrayMetadata} {a : AbsHier} {made : List (List Str)}
    {fs : Fs} (ht : MetaTree h a made fs) (hwf : fs.WF) (hcl : Clear h md fs) (hb : Plain (segs h.base)) {p : Str}
    (hp : OrdinaryPath h p) (hno : ∀ q ∈ made, ¬ Below (segs p) q) : listNodes env h p fs = (.err .notFound, fs) := by
  have hpl : Plain (metaDir h p) := hb.append (Plain.append (by decide) hp.plain)
  have hnd : fs.get (metaDir h p) ≠ some .dir := fun e => by
    rw [show metaDir h p = segs h.base ++ str!"meta" :: str!"root" :: segs p by simp [metaDir]] at e
    obtain ⟨q, h1, h2⟩ := (ht.dirs _).mp e
    exact hno q h1 h2
  have hdb := ht.dirable hcl hp
  have hnone : fs.get (metaDir h p) = none := by
    cases e : fs.get (metaDir h p) with
    | none => rfl
    | some n =>
      cases n with
      | dir => exact absurd e hnd
      | file b => exact absurd e (hdb _ List.prefix_rfl b)
  have hloc : h.loc (metaRoot ++ '/' :: canonicalizePath p) = metaDir h p := by
    rw [Hier.loc, segs_append_sep, segs_canonicalizePath]; rfl
  obtain ⟨t, ht, hseg⟩ := getPath_loc (h := h) (key := metaRoot ++ '/' :: canonicalizePath p) (by rw [hloc]; exact hpl)
  have hne : metaDir h p ≠ [] := by simp [metaDir]
  have e1 := List.dropLast_concat_getLast hne
  have hlocate : fs.locate (metaDir h p) = .err .notFound ∨ fs.locate (metaDir h p) = .ok (metaDir h p) := by
    by_cases hd : fs.get (metaDir h p).dropLast = some .dir
    · have := Fs.locate_plain_dir hwf (p := (metaDir h p).dropLast) (s := (metaDir h p).getLast hne) (by rw [e1]; exact hpl) hd
      rw [e1] at this
      exact .inr this
    · have := Fs.locate_err hwf (p := (metaDir h p).dropLast) (s := (metaDir h p).getLast hne) (by rw [e1]; exact hpl) hd
      rw [e1] at this
      rcases this with ⟨h1, _⟩ | ⟨_, h2⟩
      · exact .inl h1
      · exact absurd (hdb.prefix (List.dropLast_prefix _)) h2
  have hls : storeListDir h (metaRoot ++ '/' :: canonicalizePath p) fs = (.err .notFound, fs) := by
    refine Prod.ext ?_ rfl
    simp only [storeListDir, M.read_apply, ht, Outcome.bind_ok, hseg, hloc]
    rcases hlocate with e | e
    · rw [e]
    · rw [e]; simp only [hnone]
  simp only [listNodes, M.bind_apply, hls]

/-- **C108, what holds.** Any programs perform any history of calls in a directory without a hierarchy, and then any of
them lists the nodes below an ordinary path. If no node was ever created below the path, the call fails. Otherwise, if
the name of every child node is one of at least as many bytes as the metadata suffix (and the suffix' number of bytes
from its end lies between two characters), the call returns in ascending order the names of the children below which
a node was ever created and the names of the child nodes without as many bytes at their end. Otherwise it
panics. -/
theorem C108_partial (fam : Env → Prop) (h : Hier) (md : List Str → ArrayMetadata)
    (fill : List Str → (t : RsType) → El t) (calls : List (Env × BCall)) (env : Env) (p : Str) (fs : Fs) (hwf : fs.WF)
    (hnm : fs.Named) (hT : Together md fam) (hb : Plain (segs h.base)) (hsfx : GoodSuffix h.entry)
    (hdot : '.' ∉ stripDot h.entry.metadataKeySuffix) (hs : ∀ q, GoodSep (md q).separator) (hf : FreshDir h fs)
    (hok : ∀ x ∈ calls, fam x.1 ∧ x.2.Ok x.1 h md fill ∧ x.2.Known fam) (he : fam env) (hp : OrdinaryPath h p)
    (hdotted : str!"." <+: h.entry.metadataKeySuffix)
    (hov : env.overflowChecks = true ∨ byteLen h.entry.metadataKeySuffix ≤ 5) :
    let a := bAbsState md fill (calls.map (·.2)) AbsHier.empty
    let made := madePaths md fill (calls.map (·.2)) AbsHier.empty
    let fs' := mState h md calls fs
    ((∀ q ∈ made, ¬ Below (segs p) q) → listNodes env h p fs' = (.err .notFound, fs')) ∧
    ((∃ q ∈ made, Below (segs p) q) →
      ((∀ n, (a.node (segs p ++ [n])).isSome = true →
          ∃ u r, n = u ++ r ∧ byteLen r = byteLen h.entry.metadataKeySuffix) →
        ∃ names, listNodes env h p fs' = (.ok names, fs') ∧ names.Pairwise (· < ·) ∧
          ∀ u, u ∈ names ↔ (∃ q ∈ made, Below (segs p ++ [u]) q) ∨
            ∃ r, (a.node (segs p ++ [u ++ r])).isSome = true ∧ byteLen r = byteLen h.entry.metadataKeySuffix) ∧
      ((∃ n, (a.node (segs p ++ [n])).isSome = true ∧
          ∀ u r, n = u ++ r → byteLen r ≠ byteLen h.entry.metadataKeySuffix) →
        listNodes env h p fs' = (.panic, fs'))) := by
  intro a made fs'
  have h0 : Wide.Keeps fam h md AbsHier.empty fs := ⟨.fresh hb hs hwf hf, hnm⟩
  have hK : Wide.Keeps fam h md a fs' := Wide.sound_history hT hb hsfx hdot hs h0 calls hok
  have ht : MetaTree h a made fs' := by
    have := (MetaTree.fresh hf).history hT hb hsfx hdot hs h0 calls hok
    rwa [List.nil_append] at this
  have hh := hK.shared.holds env he
  have hwf' := hK.shared.wf
  have hmd : metaDir h p = segs h.base ++ str!"meta" :: str!"root" :: segs p := by simp [metaDir]
  have hmd1 : ∀ s, metaDir h p ++ [s] = segs h.base ++ str!"meta" :: str!"root" :: (segs p ++ [s]) := by simp [metaDir]
  have hdir : fs'.get (metaDir h p) = some .dir ↔ ∃ q ∈ made, Below (segs p) q := by rw [hmd]; exact ht.dirs _
  have hsd : h.entry.metadataKeySuffix = '.' :: stripDot h.entry.metadataKeySuffix := by
    obtain ⟨t, ht⟩ := hdotted
    rw [← ht]; rfl
  have hpos : 0 < byteLen h.entry.metadataKeySuffix := by
    rw [hsd, byteLen_cons]
    have := char_utf8Size_pos '.'
    omega
  refine ⟨fun hno => ?_, fun hyes => ?_⟩
  · exact ht.missing hwf' hK.shared.clear hb hp hno
  · have hd := hdir.mpr hyes
    have hn : ∀ d, fs'.get (metaDir h p ++ [d]) = some .dir → d ≠ [] ∧ '/' ∉ d := by
      intro d hd
      rw [hmd1, ht.dirs] at hd
      obtain ⟨q, h1, h2⟩ := hd
      obtain ⟨p', _, rfl⟩ := ht.made q h1
      have := mem_segs (h2.1.subset (show d ∈ segs p ++ [d] by simp))
      exact ⟨this.2.1, this.1⟩
    obtain ⟨h1, h2⟩ := listNodes_exact env h p fs' hwf' hn hb hp.plain hd (hov.imp id fun e => ⟨e, hsfx⟩)
    have hlisted : ∀ s, ListedDoc h p fs' s ↔ ∃ n kind, (a.node (segs p ++ [n])).isSome = true ∧
        (kind = str!"array" ∨ kind = str!"group") ∧ (∃ b, fs'.get (metaDir h p ++ [s]) = some (.file b)) ∧
        s = n ++ ('.' :: kind ++ h.entry.metadataKeySuffix) := by
      intro s
      constructor
      · rintro ⟨hb, _⟩
        obtain ⟨n, kind, h3, h4, h5⟩ := ht.child hh hb
        exact ⟨n, kind, h3, h4, hb, by rw [hsd]; exact h5⟩
      · rintro ⟨n, kind, h3, h4, hb, rfl⟩
        refine ⟨hb, ?_⟩
        rcases h4 with rfl | rfl
        · exact .inl ⟨metaRoot ++ '/' :: canonicalizePath p ++ n ++ str!".", by simp⟩
        · exact .inr ⟨metaRoot ++ '/' :: canonicalizePath p ++ n ++ str!".", by simp⟩
    have hdoc : ∀ n, (a.node (segs p ++ [n])).isSome = true → ∃ kind, (kind = str!"array" ∨ kind = str!"group") ∧
        ListedDoc h p fs' (n ++ ('.' :: kind ++ h.entry.metadataKeySuffix)) := by
      intro n hn
      obtain ⟨kind, h3, h4⟩ := ht.child_doc hh hn
      rw [← hsd] at h4
      exact ⟨kind, h3, (hlisted _).mpr ⟨n, kind, hn, h3, h4, rfl⟩⟩
    refine ⟨fun hall => ?_, fun ⟨n, h3, h4⟩ => h2 ?_⟩
    · obtain ⟨names, h3, h4, h5⟩ := h1 (by
        intro s hs
        obtain ⟨n, kind, h3, h4, _, rfl⟩ := (hlisted s).mp hs
        obtain ⟨u, r, h5⟩ := hall n h3
        exact ⟨u, (cut_doc h4 hpos).mpr ⟨r, h5⟩⟩)
      refine ⟨names, h3, h4, fun u => ?_⟩
      rw [h5, hmd1, ht.dirs]
      refine or_congr Iff.rfl ⟨?_, ?_⟩
      · rintro ⟨s, hs, hc⟩
        obtain ⟨n, kind, h3, h4, _, rfl⟩ := (hlisted s).mp hs
        obtain ⟨r, rfl, h6⟩ := (cut_doc h4 hpos).mp hc
        exact ⟨r, h3, h6⟩
      · rintro ⟨r, h3, h6⟩
        obtain ⟨kind, h4, h7⟩ := hdoc _ h3
        exact ⟨_, h7, (cut_doc h4 hpos).mpr ⟨r, rfl, h6⟩⟩
    · obtain ⟨kind, h5, h6⟩ := hdoc n h3
      refine ⟨_, h6, fun u hc => ?_⟩
      obtain ⟨r, h7, h8⟩ := (cut_doc h5 hpos).mp hc
      exact h4 u r h7 h8

/-- **C108, other suffixes.** With a suffix that does not begin with a dot the documents are not recognised: the call
returns the names of the children below which a node was ever created. -/
theorem C108_undotted (fam : Env → Prop) (h : Hier) (md : List Str → ArrayMetadata)
    (fill : List Str → (t : RsType) → El t) (calls : List (Env × BCall)) (env : Env) (p : Str) (fs : Fs) (hwf : fs.WF)
    (hnm : fs.Named) (hT : Together md fam) (hb : Plain (segs h.base)) (hsfx : GoodSuffix h.entry)
    (hdot : '.' ∉ stripDot h.entry.metadataKeySuffix) (hs : ∀ q, GoodSep (md q).separator) (hf : FreshDir h fs)
    (hok : ∀ x ∈ calls, fam x.1 ∧ x.2.Ok x.1 h md fill ∧ x.2.Known fam) (he : fam env) (hp : OrdinaryPath h p)
    (hundotted : ¬ str!"." <+: h.entry.metadataKeySuffix)
    (hov : env.overflowChecks = true ∨ byteLen h.entry.metadataKeySuffix ≤ 5) :
    let made := madePaths md fill (calls.map (·.2)) AbsHier.empty
    let fs' := mState h md calls fs
    ((∀ q ∈ made, ¬ Below (segs p) q) → listNodes env h p fs' = (.err .notFound, fs')) ∧
    ((∃ q ∈ made, Below (segs p) q) →
      ∃ names, listNodes env h p fs' = (.ok names, fs') ∧ names.Pairwise (· < ·) ∧
        ∀ u, u ∈ names ↔ ∃ q ∈ made, Below (segs p ++ [u]) q) := by
  intro made fs'
  have h0 : Wide.Keeps fam h md AbsHier.empty fs := ⟨.fresh hb hs hwf hf, hnm⟩
  have hK := Wide.sound_history hT hb hsfx hdot hs h0 calls hok
  have ht : MetaTree h (bAbsState md fill (calls.map (·.2)) AbsHier.empty) made fs' := by
    have := (MetaTree.fresh hf).history hT hb hsfx hdot hs h0 calls hok
    rwa [List.nil_append] at this
  have hwf' : fs'.WF := hK.shared.wf
  have hmd1 : ∀ s, metaDir h p ++ [s] = segs h.base ++ str!"meta" :: str!"root" :: (segs p ++ [s]) := by simp [metaDir]
  refine ⟨ht.missing hwf' hK.shared.clear hb hp, fun hyes => ?_⟩
  have hd : fs'.get (metaDir h p) = some .dir := by
    rw [show metaDir h p = segs h.base ++ str!"meta" :: str!"root" :: segs p by simp [metaDir]]
    exact (ht.dirs _).mpr hyes
  have hn : ∀ d, fs'.get (metaDir h p ++ [d]) = some .dir → d ≠ [] ∧ '/' ∉ d := by
    intro d hd
    rw [hmd1, ht.dirs] at hd
    obtain ⟨q, h1, h2⟩ := hd
    obtain ⟨p', _, rfl⟩ := ht.made q h1
    have := mem_segs (h2.1.subset (show d ∈ segs p ++ [d] by simp))
    exact ⟨this.2.1, this.1⟩
  have hsd : stripDot h.entry.metadataKeySuffix = h.entry.metadataKeySuffix := by
    unfold stripDot
    split
    · rename_i r e
      exact absurd ⟨r, by rw [e]; rfl⟩ hundotted
    · rfl
  have hnone : ∀ s, ¬ ListedDoc h p fs' s := by
    rintro s ⟨hb, hdoc⟩
    obtain ⟨n, kind, _, _, rfl⟩ := ht.child (hK.shared.holds env he) hb
    rw [hsd] at hdoc
    rw [show ∀ pre : Str, pre ++ (n ++ ('.' :: kind ++ '.' :: h.entry.metadataKeySuffix)) =
      (pre ++ n ++ ('.' :: kind) ++ str!".") ++ h.entry.metadataKeySuffix by simp, IsDocName] at hdoc
    rcases hdoc with ⟨t, e⟩ | ⟨t, e⟩
    · rw [← List.append_assoc] at e
      have e := congrArg List.getLast? (List.append_cancel_right e)
      rw [List.getLast?_append, List.getLast?_append] at e
      exact absurd (show some 'y' = some '.' from e) (by decide)
    · rw [← List.append_assoc] at e
      have e := congrArg List.getLast? (List.append_cancel_right e)
      rw [List.getLast?_append, List.getLast?_append] at e
      exact absurd (show some 'p' = some '.' from e) (by decide)
  obtain ⟨names, h1, h2, h3⟩ := (listNodes_exact env h p fs' hwf' hn hb hp.plain hd (hov.imp id fun e => ⟨e, hsfx⟩)).1
    fun s hs => absurd hs (hnone s)
  refine ⟨names, h1, h2, fun u => ?_⟩
  rw [h3, hmd1, ht.dirs]
  exact ⟨fun e => e.elim id fun ⟨s, hs, _⟩ => absurd hs (hnone s), .inl⟩

/-! ## The full claim -/

/-- **C108, the full claim**: after any history, the nodes below a path that has a group, or the root, are listed: the
result is the names of the children that are nodes or on the way to one. -/
def Spec.ListingsShow (env : Env) (h : Hier) : Prop :=
  ∀ (md : List Str → ArrayMetadata) (fill : List Str → (t : RsType) → El t) (calls : List BCall) (p : Str) (fs : Fs),
    fs.WF → FreshDir h fs → (∀ c ∈ calls, c.Ok env h md fill) → OrdinaryPath h p →
    let a := bAbsState md fill calls AbsHier.empty
    (segs p = [] ∨ ∃ ats, a.node (segs p) = some (.group ats)) →
    ∃ names, (listNodes env h p (mState h md (calls.map (env, ·)) fs)).1 = .ok names ∧
      ∀ u, u ∈ names ↔ ∃ q n, a.node q = some n ∧ segs p ++ [u] <+: q

/-- A group is created in an empty hierarchy: it cannot be listed. A group below it is created and removed: it is still
listed, as is one on the way to a removed node. A child with a document is listed with a part of its name. -/
theorem C108_violated :
    let run (cs : List BCall) (p : Str) := (listNodes Demo.envJ Demo.hier p
      (mState Demo.hier (fun _ => Demo.arr) (cs.map (Demo.envJ, ·)) Demo.emptyFs)).1
    run [] [] = .err .notFound ∧
    run [.call (.createGroup str!"a")] str!"a" = .err .notFound ∧
    run [.call (.createGroup str!"a/b"), .call (.remove str!"a/b")] [] = .ok [str!"a"] ∧
    run [.call (.createGroup str!"a")] [] = .panic ∧
    run [.call (.createGroup str!"temperature")] [] = .ok [str!"temper"] := by
  decide +kernel

/-- The full claim fails for a new group. -/
theorem C108_violated_claim : ¬ ListingsShow Demo.envJ Demo.hier := by
  intro hc
  obtain ⟨names, h1, _⟩ := hc (fun _ => Demo.arr) Demo.fills [.call (.createGroup str!"a")] str!"a" Demo.emptyFs
    Demo.emptyFs_wf Demo.fresh (by simpa [BCall.Ok, HCall.Ok] using Demo.ordinaryPath (by decide))
    (Demo.ordinaryPath (by decide)) (.inr ⟨_, rfl⟩)
  rw [show (listNodes Demo.envJ Demo.hier str!"a" (mState Demo.hier (fun _ => Demo.arr)
    (([.call (.createGroup str!"a")] : List BCall).map (Demo.envJ, ·)) Demo.emptyFs)).1 = .err .notFound
    from C108_violated.2.1] at h1
  cases h1

/-- **C108 (violated, always).** In every hierarchy, wherever its base path is and whatever its metadata suffix: a group that
is created where there was no node cannot be listed, so the full claim fails. -/
theorem C108_violated_always (env : Env) (h : Hier) (hj : env.json.Lawful) (hb : Plain (segs h.base))
    (hsfx : GoodSuffix h.entry) (hdot : '.' ∉ stripDot h.entry.metadataKeySuffix)
    (hdotted : str!"." <+: h.entry.metadataKeySuffix)
    (hov : env.overflowChecks = true ∨ byteLen h.entry.metadataKeySuffix ≤ 5) {p : Str} (hp : OrdinaryPath h p) :
    (∀ fs : Fs, fs.WF → fs.Named → FreshDir h fs → (listNodes env h p fs).1 = .err .notFound ∧
      (listNodes env h p (createGroup env h p fs).2).1 = .err .notFound) ∧ ¬ ListingsShow env h := by
  have key : ∀ fs : Fs, fs.WF → fs.Named → FreshDir h fs → ∀ calls : List BCall, calls = [] ∨ calls = [.call (.createGroup p)] →
      (listNodes env h p (mState h (fun _ => Demo.arr) (calls.map (env, ·)) fs)).1 = .err .notFound := by
    intro fs hwf hnm hf calls hcalls
    have hT : Together (fun _ => Demo.arr) (fun e => e = env) :=
      ⟨by rintro _ _ rfl rfl; rfl, by rintro _ rfl; exact hj, by rintro _ _ rfl rfl q; exact fun _ h => rawCodec_lawful _ h⟩
    obtain ⟨h1, _⟩ := C108_partial (fun e => e = env) h (fun _ => Demo.arr) Demo.fills (calls.map (env, ·)) env p fs hwf hnm hT
      hb hsfx hdot (fun _ => .inl rfl) hf (by
        rcases hcalls with rfl | rfl
        · simp
        · simpa [BCall.Ok, HCall.Ok, BCall.Known] using hp) rfl hp hdotted hov
    rw [h1]
    intro q hq hbelow
    rcases hcalls with rfl | rfl
    · simp [madePaths] at hq
    · have : q = segs p := by
        simpa [madePaths, BCall.makes, AbsHier.empty] using hq
      exact hbelow.2 this.symm
  refine ⟨fun fs hwf hnm hf => ⟨by
    have := key fs hwf hnm hf [] (.inl rfl)
    simpa [mState] using this, by
    have := key fs hwf hnm hf _ (.inr rfl)
    simpa [mState, BCall.run, HCall.run] using this⟩, fun hc => ?_⟩
  have hfresh : FreshDir h Demo.emptyFs := by
    constructor
    · intro l r hl hr _
      have : l ≠ [] := by rw [hl]; simp [hr]
      simp [Demo.emptyFs, Fs.get, Fs.lookup, Ne.symm this]
    · intro l b hl
      by_cases h : l = []
      · subst h; simp [Demo.emptyFs, Fs.get, Fs.lookup]
      · simp [Demo.emptyFs, Fs.get, Fs.lookup, Ne.symm h]
  obtain ⟨names, h1, _⟩ := hc (fun _ => Demo.arr) Demo.fills [.call (.createGroup p)] p Demo.emptyFs
    Demo.emptyFs_wf hfresh (by simpa [BCall.Ok, HCall.Ok] using hp) hp
    (.inr ⟨fun _ => none, by simp [bAbsState, BCall.abs, HCall.abs, AbsHier.empty, AbsHier.put]⟩)
  rw [key _ Demo.emptyFs_wf Demo.emptyFs_named hfresh _ (.inr rfl)] at h1
  cases h1

/-- The hypotheses are met by the usual hierarchy. -/
example : ¬ ListingsShow Demo.envJ Demo.hier :=
  (C108_violated_always Demo.envJ Demo.hier jsonText_lawful (by decide) (by unfold GoodSuffix; decide) (by decide)
    (by decide) (.inl rfl) (p := str!"a") (Demo.ordinaryPath (by decide))).2

/-! ## A concrete case -/

theorem Demo.ordinaryWords {p : Str}
    (hp : (segs p).all (fun s => decide (s ∈ [str!"temperature", str!"station", str!"x"])) = true) :
    OrdinaryPath Demo.hier p := by
  intro s hs
  have := of_decide_eq_true (List.all_eq_true.mp hp s hs)
  simp only [List.mem_cons, List.not_mem_nil, or_false] at this
  have hc : ∀ c r, c ≠ 'c' → ¬ ChunkLike (c :: r) := by
    rintro c r hne (e | ⟨d, t, e, _⟩)
    · exact hne (List.cons.inj e).1
    · exact hne (List.cons.inj e).1
  rcases this with rfl | rfl | rfl
  · exact ⟨by decide, hc _ _ (by decide), by decide, by decide⟩
  · exact ⟨by decide, hc _ _ (by decide), by decide, by decide⟩
  · exact ⟨by decide, hc _ _ (by decide), by decide, by decide⟩

/-- Two machines create nodes, one of which is removed again. -/
def Demo.listed : List (Env × BCall) :=
  [(Demo.little, .call (.createGroup str!"temperature")), (Demo.big, .call (.createGroup str!"station/x")),
   (Demo.little, .call (.remove str!"/station/x"))]

theorem Demo.listed_ok : ∀ x ∈ Demo.listed, (x.1 = Demo.little ∨ x.1 = Demo.big) ∧
    x.2.Ok x.1 Demo.hier (fun _ => Demo.arrGz) Demo.fills ∧ x.2.Known (fun e => e = Demo.little ∨ e = Demo.big) := by
  simp only [Demo.listed, List.forall_mem_cons, BCall.Ok, HCall.Ok]
  exact ⟨⟨.inl trivial, Demo.ordinaryWords (by decide), trivial⟩, ⟨.inr trivial, Demo.ordinaryWords (by decide), trivial⟩,
    ⟨.inl trivial, Demo.ordinaryWords (by decide), trivial⟩, by simp⟩

example : ∃ names, (listNodes Demo.big Demo.hier [] (mState Demo.hier (fun _ => Demo.arrGz) Demo.listed Demo.emptyFs)).1 =
    .ok names ∧ str!"station" ∈ names ∧ str!"temper" ∈ names ∧ str!"temperature" ∉ names := by
  obtain ⟨_, h2⟩ := C108_partial _ Demo.hier (fun _ => Demo.arrGz) Demo.fills Demo.listed Demo.big [] Demo.emptyFs
    Demo.emptyFs_wf Demo.emptyFs_named Demo.together (by decide) (by unfold GoodSuffix; decide) (by decide)
    (fun _ => .inl rfl) Demo.fresh Demo.listed_ok (.inr rfl) (Demo.ordinaryWords (by decide)) (by decide) (.inr (by decide))
  have hmade : madePaths (fun _ => Demo.arrGz) Demo.fills (Demo.listed.map (·.2)) AbsHier.empty =
      [[str!"temperature"], [str!"station", str!"x"]] := rfl
  have hseg : segs [] = [] := by decide
  rw [hmade, hseg] at h2
  obtain ⟨h3, _⟩ := h2 ⟨_, List.mem_cons_self .., ⟨_, rfl⟩, by simp⟩
  have hnode : ∀ n, ((bAbsState (fun _ => Demo.arrGz) Demo.fills (Demo.listed.map (·.2)) AbsHier.empty).node
      ([] ++ [n])).isSome = true ↔ n = str!"temperature" := by
    intro n
    have e1 : segs str!"temperature" = [str!"temperature"] := by decide
    have e2 : segs str!"station/x" = [str!"station", str!"x"] := by decide
    have e3 : segs str!"/station/x" = [str!"station", str!"x"] := by decide
    simp only [Demo.listed, List.map_cons, List.map_nil, bAbsState, BCall.abs, HCall.abs, AbsHier.empty, AbsHier.put, e1, e2, e3]
    by_cases hn : n = str!"temperature"
    · simp [hn]
    · simp [hn]
  obtain ⟨names, h4, _, h5⟩ := h3 fun n hn => by
    rw [hnode] at hn
    exact ⟨str!"temper", str!"ature", hn, by decide⟩
  refine ⟨names, by rw [h4], (h5 _).mpr (.inl ⟨[str!"station", str!"x"], by simp, ⟨_, rfl⟩, by simp⟩),
    (h5 _).mpr (.inr ⟨str!"ature", (hnode _).mpr rfl, by decide⟩), fun hm => ?_⟩
  rcases (h5 _).mp hm with ⟨q, hq, hq'⟩ | ⟨r, hr, hr'⟩
  · simp only [List.mem_cons, List.not_mem_nil, or_false] at hq
    rcases hq with rfl | rfl
    · exact hq'.2 rfl
    · exact absurd hq'.1 (by decide)
  · have := congrArg List.length ((hnode _).mp hr)
    have h0 : r = [] := by simpa using this
    subst h0
    exact absurd hr' (by decide)

/-- A hierarchy whose suffix does not begin with a dot: only the group on the way to another node is listed. -/
def Demo.hierUndotted : Hier := { Demo.hier with entry := { Demo.hier.entry with metadataKeySuffix := str!"json" } }

example : ∃ names, (listNodes Demo.big Demo.hierUndotted []
    (mState Demo.hierUndotted (fun _ => Demo.arrGz) Demo.listed Demo.emptyFs)).1 = .ok names ∧
    ∀ u, u ∈ names ↔ u = str!"station" := by
  have hord : ∀ {p}, OrdinaryPath Demo.hier p → OrdinaryPath Demo.hierUndotted p := fun hp s hs =>
    ⟨(hp s hs).up, (hp s hs).chunk, (hp s hs).array, (hp s hs).group⟩
  have hok : ∀ x ∈ Demo.listed, (x.1 = Demo.little ∨ x.1 = Demo.big) ∧
      x.2.Ok x.1 Demo.hierUndotted (fun _ => Demo.arrGz) Demo.fills ∧
      x.2.Known (fun e => e = Demo.little ∨ e = Demo.big) := by
    simp only [Demo.listed, List.forall_mem_cons, BCall.Ok, HCall.Ok]
    exact ⟨⟨.inl trivial, hord (Demo.ordinaryWords (by decide)), trivial⟩,
      ⟨.inr trivial, hord (Demo.ordinaryWords (by decide)), trivial⟩,
      ⟨.inl trivial, hord (Demo.ordinaryWords (by decide)), trivial⟩, by simp⟩
  obtain ⟨_, h2⟩ := C108_undotted _ Demo.hierUndotted (fun _ => Demo.arrGz) Demo.fills Demo.listed Demo.big [] Demo.emptyFs
    Demo.emptyFs_wf Demo.emptyFs_named Demo.together (by decide) (by unfold GoodSuffix; decide) (by decide)
    (fun _ => .inl rfl) Demo.fresh hok (.inr rfl) (hord (Demo.ordinaryWords (by decide))) (by decide) (.inr (by decide))
  have hmade : madePaths (fun _ => Demo.arrGz) Demo.fills (Demo.listed.map (·.2)) AbsHier.empty =
      [[str!"temperature"], [str!"station", str!"x"]] := rfl
  have hseg : segs [] = [] := by decide
  rw [hmade, hseg] at h2
  obtain ⟨names, h3, _, h4⟩ := h2 ⟨_, List.mem_cons_self .., ⟨_, rfl⟩, by simp⟩
  refine ⟨names, by rw [h3], fun u => (h4 u).trans ?_⟩
  constructor
  · rintro ⟨q, hq, ⟨t, ht⟩, hne⟩
    simp only [List.mem_cons, List.not_mem_nil, or_false] at hq
    rcases hq with rfl | rfl
    · exact absurd (by simpa using (List.cons.inj ht).1) (fun e : u = str!"temperature" => hne (by rw [e]; rfl))
    · exact (List.cons.inj ht).1
  · rintro rfl
    exact ⟨[str!"station", str!"x"], by simp, ⟨_, rfl⟩, by simp⟩

end Zarr
