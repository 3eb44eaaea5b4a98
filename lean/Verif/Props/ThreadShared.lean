import Verif.Lemmas.Serial
import Verif.Props.ThreadCalls
/-!
# Concurrent API calls on the same node or chunk: C77
-/

namespace Zarr

open Spec

/-- Calls about one node or chunk that may overlap: writing a chunk with reading or writing it; setting the
attributes of a node with calls that change nothing. -/
def Spec.HCall.overlaps : HCall → HCall → Bool
  | .writeChunk _ _ _, .writeChunk _ _ _ | .writeChunk _ _ _, .readChunk _ _ _ => true
  | .setAttributes _ _, .nodeExists _ | .setAttributes _ _, .arrayExists _ | .setAttributes _ _, .getArrayMetadata _
  | .setAttributes _ _, .listAttributes _ => true
  | _, _ => false

namespace Threads

/-! ## Programs with at most one visible access -/

section
variable {α β : Type} {h : Hier} {m0 : Mem} {W : Nat → Loc → Prop} {S : Loc → Prop} {O : Nat → Loc → Prop} {i : Nat}

theorem Prog.Visible.weaken {b : Bool} {p : Prog α} (hp : p.Visible h m0 W S O i false) : p.Visible h m0 W S O i b := by
  induction p with
  | done r => trivial
  | «exists» key k ih => exact ⟨hp.1, hp.2.1, fun v hv => ih _ (hp.2.2 v hv)⟩
  | get key k ih =>
    rcases hp.2.2 with ⟨k1, k2⟩ | ⟨k1, _⟩
    · exact ⟨hp.1, hp.2.1, .inl ⟨k1, fun v hv => ih _ (k2 v hv)⟩⟩
    · simp at k1
  | set key v k ih =>
    rcases hp.2 with ⟨k1, k2⟩ | ⟨_, _, k1, _⟩
    · exact ⟨hp.1, .inl ⟨k1, ih _ k2⟩⟩
    · simp at k1
  | erase key k ih => exact ⟨hp.1, hp.2.1, ih _ hp.2.2⟩

theorem Prog.Visible.bind {b : Bool} {p : Prog α} {f : α → Prog β} (hp : p.Visible h m0 W S O i false)
    (hf : ∀ a, (f a).Visible h m0 W S O i b) : (p >>= f).Visible h m0 W S O i b := by
  rw [Prog.bind_def]
  induction p with
  | done r => cases r <;> first | exact hf _ | trivial
  | «exists» key k ih => exact ⟨hp.1, hp.2.1, fun v hv => ih _ (hp.2.2 v hv)⟩
  | get key k ih =>
    rcases hp.2.2 with ⟨k1, k2⟩ | ⟨k1, _⟩
    · exact ⟨hp.1, hp.2.1, .inl ⟨k1, fun v hv => ih _ (k2 v hv)⟩⟩
    · simp at k1
  | set key v k ih =>
    rcases hp.2 with ⟨k1, k2⟩ | ⟨_, _, k1, _⟩
    · exact ⟨hp.1, .inl ⟨k1, ih _ k2⟩⟩
    · simp at k1
  | erase key k ih => exact ⟨hp.1, hp.2.1, ih _ hp.2.2⟩

theorem Prog.Visible.record {b : Bool} {p : Prog α} {f : Outcome α → β} (hp : p.Visible h m0 W S O i b) :
    (p.record f).Visible h m0 W S O i b := by
  induction p generalizing b with
  | done r => trivial
  | «exists» key k ih => exact ⟨hp.1, hp.2.1, fun v hv => ih _ (hp.2.2 v hv)⟩
  | get key k ih =>
    rcases hp.2.2 with ⟨k1, k2⟩ | ⟨k1, k2⟩
    · exact ⟨hp.1, hp.2.1, .inl ⟨k1, fun v hv => ih _ (k2 v hv)⟩⟩
    · exact ⟨hp.1, hp.2.1, .inr ⟨k1, fun v hv => ih _ (k2 v hv)⟩⟩
  | set key v k ih =>
    rcases hp.2 with ⟨k1, k2⟩ | ⟨k1, k2, k3, k4⟩
    · exact ⟨hp.1, .inl ⟨k1, ih _ k2⟩⟩
    · exact ⟨hp.1, .inr ⟨k1, k2, k3, ih _ k4⟩⟩
  | erase key k ih => exact ⟨hp.1, hp.2.1, ih _ hp.2.2⟩

theorem Prog.Visible.ite {b : Bool} {c : Prop} [Decidable c] {p q : Prog α} (hp : p.Visible h m0 W S O i b)
    (hq : q.Visible h m0 W S O i b) : (if c then p else q).Visible h m0 W S O i b := by
  split
  · exact hp
  · exact hq

/-- A program that uses only files nobody else changes. -/
theorem Prog.Uses.visible {b : Bool} {p : Prog α} {R : Loc → Prop} (hR : ∀ l, R l → Mine W i l ∧ ¬ S l)
    (hW : ∀ l, W i l → Mine W i l ∧ ¬ S l) (hp : p.Uses h R (W i)) : p.Visible h m0 W S O i b := by
  have hm : ∀ l, R l ∨ W i l → Mine W i l ∧ ¬ S l := fun l hl => hl.elim (hR l) (hW l)
  induction p with
  | done r => trivial
  | «exists» key k ih => exact ⟨hp.1, (hm _ hp.2.1).1, fun v _ => ih _ (hp.2.2 _)⟩
  | get key k ih =>
    exact ⟨hp.1, (hm _ hp.2.1).1, .inl ⟨fun x => absurd x (hm _ hp.2.1).2, fun v _ => ih _ (hp.2.2 _)⟩⟩
  | set key v k ih => exact ⟨hp.1, .inl ⟨hp.2.1, ih _ (hp.2.2 _)⟩⟩
  | erase key k ih => exact ⟨hp.1, hp.2.1, ih _ (hp.2.2 _)⟩

theorem vis_exists {b : Bool} {key : Str} (h1 : Plain (h.loc key)) (h2 : Mine W i (h.loc key)) :
    (pExists key).Visible h m0 W S O i b := ⟨h1, h2, fun _ _ => trivial⟩

/-- One visible look. -/
theorem vis_get {key : Str} {k : Outcome (Option Bytes) → Prog α} (h1 : Plain (h.loc key)) (h2 : Mine W i (h.loc key))
    (hk : ∀ r, (k r).Visible h m0 W S O i false) : (Prog.get key k).Visible h m0 W S O i true :=
  ⟨h1, h2, .inr ⟨rfl, fun _ _ => hk _⟩⟩

/-- A call seen as one step leaves the filesystem as it leaves the map of contents. -/
theorem Prog.run_shares {fs0 fs : Fs} (hl : Layout fs0 W S) (p : Prog α) (hp : p.Shares h fs0.content W S i)
    (hc : Change (Touched W S) fs0 fs) (hs : Seen fs0.content W S fs.content) :
    (p.run h fs).1 = (p.eval h fs.content).1 ∧ (p.run h fs).2.content = (p.eval h fs.content).2 ∧
      Change (Touched W S) fs0 (p.run h fs).2 ∧ Seen fs0.content W S (p.run h fs).2.content := by
  induction p generalizing fs with
  | done r => exact ⟨rfl, rfl, hc, hs⟩
  | «exists» key k ih =>
    simp only [Prog.run, Prog.eval, storeExists_eq hc.wf hp.1]
    exact ih _ (hp.2.2 _ (hs _)) hc hs
  | get key k ih =>
    simp only [Prog.run, Prog.eval, storeGet_eq hc.wf hp.1]
    exact ih _ (hp.2.2 _ (hs _)) hc hs
  | set key v k ih =>
    obtain ⟨fs', k1, k2, k3⟩ := Prog.call_astep (q := k v.2) hl hc hp rfl
    simp only [Prog.call, Option.some.injEq, Prod.mk.injEq] at k1
    obtain ⟨k1, rfl⟩ := k1
    have hr : (Prog.set key v k).run h fs = (k v.2).run h (storeSet h key v fs).2 := by
      simp only [Prog.run]; rw [k1]
    have hs' : Seen fs0.content W S (storeSet h key v fs).2.content := by
      rw [k2]
      rcases hp.2.1 with x | x
      · exact hs.upd_own x hl.apart _
      · exact hs.upd_shared x _
    rw [hr, Prog.eval, ← k2]
    exact ih _ hp.2.2 k3 hs'
  | erase key k ih =>
    obtain ⟨fs', k1, k2, k3⟩ := Prog.call_astep (q := k (.ok true)) hl hc hp rfl
    simp only [Prog.call, Option.some.injEq, Prod.mk.injEq] at k1
    obtain ⟨k1, rfl⟩ := k1
    have hr : (Prog.erase key k).run h fs = (k (.ok true)).run h (storeErase h key fs).2 := by
      simp only [Prog.run]; rw [k1]
    have hs' : Seen fs0.content W S (storeErase h key fs).2.content := by
      rw [k2]; exact hs.upd_own hp.2.1 hl.apart _
    rw [hr, Prog.eval, ← k2]
    exact ih _ hp.2.2 k3 hs'

theorem Prog.eval_record (f : Outcome α → β) (p : Prog α) (m : Mem) :
    (p.record f).eval h m = (.ok (f (p.eval h m).1), (p.eval h m).2) := by
  induction p generalizing m with
  | done r => rfl
  | _ => simp only [Prog.record, Prog.eval, *]

end

/-! ## Calls -/

/-- The program of a call; for removal, one that fails. -/
def HCall.prog' (env : Env) (h : Hier) (md : List Str → ArrayMetadata) (c : HCall) : Prog HResult :=
  (HCall.prog env h md c).getD (.done (.ok (.unit .panic)))

/-- The node or chunk of the call is stored. -/
def Stored (h : Hier) (md : List Str → ArrayMetadata) (c : HCall) (fs : Fs) : Prop :=
  ∃ l, filesOf h md c l ∧ (fs.content l).isSome

section
variable {env : Env} {h : Hier} {md : List Str → ArrayMetadata}

theorem threadProg_seq {cs : List HCall} {p : Prog (List HResult)} (hp : threadProg env h md cs = some p) :
    p = seqProg (HCall.prog' env h md) cs ∧ ∀ c ∈ cs, (HCall.prog env h md c).isSome := by
  induction cs generalizing p with
  | nil =>
    simp only [threadProg, Option.some.injEq] at hp
    exact ⟨hp.symm, by simp⟩
  | cons c cs ih =>
    unfold threadProg at hp
    split at hp
    · rename_i p1 p2 e1 e2
      obtain ⟨rfl, k2⟩ := ih e2
      refine ⟨?_, ?_⟩
      · have e : HCall.prog' env h md c = p1 := by rw [HCall.prog', e1]; rfl
        rw [seqProg, e]
        exact (Option.some.inj hp).symm
      · intro x hx
        rcases List.mem_cons.mp hx with rfl | hx
        · rw [e1]; rfl
        · exact k2 x hx
    · simp at hp

theorem prog'_total (c : HCall) (m : Mem) : ∃ r, ((HCall.prog' env h md c).eval h m).1 = .ok r := by
  cases c <;> simp only [HCall.prog', HCall.prog, Option.getD_some, Option.getD_none, Prog.eval_record] <;> exact ⟨_, rfl⟩

theorem filesOf_docs {c : HCall} {q : Str} (hc : c.cell = some (.node (segs q))) (l : Loc) :
    filesOf h md c l ↔ (l = docLoc h str!"array" q ∨ l = docLoc h str!"group" q) := by
  obtain ⟨p, e, k⟩ := filesOf_node (h := h) (md := md) hc
  rw [k, docLoc, docLoc, docLoc, docLoc, e]

theorem filesOf_data {c : HCall} {q : Str} {pos : List Nat} (hok : c.Fits h md) (hc : c.cell = some (.chunk (segs q) pos))
    (l : Loc) : filesOf h md c l ↔ l = h.loc (chunkKey q (md (segs q)) pos) := by
  obtain ⟨p, _, e, k⟩ := filesOf_chunk hok hc
  rw [k, Hier.loc, Hier.loc, segs_chunkKey, segs_chunkKey, e]

/-- Calls about the same node or chunk have the same files. -/
theorem files_of_cell {c c' : HCall} (hok : c.Fits h md) (hok' : c'.Fits h md) (he : c.cell = c'.cell) {l : Loc}
    (hl : filesOf h md c l) : filesOf h md c' l := by
  cases hc : c.cell with
  | none => cases c <;> simp [HCall.cell] at hc; exact hl.elim
  | some x =>
    cases x with
    | node q =>
      obtain ⟨p, rfl, k⟩ := filesOf_node (h := h) (md := md) hc
      exact (filesOf_docs (he ▸ hc) l).mpr ((k l).mp hl)
    | chunk q pos =>
      obtain ⟨p, _, rfl, k⟩ := filesOf_chunk hok hc
      exact (filesOf_data hok' (he ▸ hc) l).mpr ((k l).mp hl)

/-- A file of a node or chunk that a thread changes and another uses. -/
def Contended (h : Hier) (md : List Str → ArrayMetadata) (css : List (List HCall)) (l : Loc) : Prop :=
  ∃ (i j : Nat) (cs cs' : List HCall) (c c' : HCall), css[i]? = some cs ∧ css[j]? = some cs' ∧ i ≠ j ∧ c ∈ cs ∧
    c' ∈ cs' ∧ c.changes = true ∧ c.cell = c'.cell ∧ filesOf h md c l

/-- The files only thread `i` changes. -/
def Own (h : Hier) (md : List Str → ArrayMetadata) (css : List (List HCall)) (i : Nat) (l : Loc) : Prop :=
  ¬ Contended h md css l ∧ ∃ cs c, css[i]? = some cs ∧ c ∈ cs ∧ c.changes = true ∧ filesOf h md c l

/-- The files that are changed by a thread and used by another. -/
def Common (h : Hier) (md : List Str → ArrayMetadata) (css : List (List HCall)) (fs : Fs) (l : Loc) : Prop :=
  Contended h md css l ∧ (fs.content l).isSome

/-- The documents whose attributes thread `i` sets. -/
def Owner (h : Hier) (md : List Str → ArrayMetadata) (css : List (List HCall)) (i : Nat) (l : Loc) : Prop :=
  ∃ cs p a, css[i]? = some cs ∧ HCall.setAttributes p a ∈ cs ∧ filesOf h md (.setAttributes p a) l

variable {css : List (List HCall)} {fs : Fs}

/-- What is assumed of calls about the same node or chunk. -/
def Overlap (h : Hier) (md : List Str → ArrayMetadata) (css : List (List HCall)) (fs : Fs) : Prop :=
  ∀ (i j : Nat) cs cs', css[i]? = some cs → css[j]? = some cs' → i ≠ j → ∀ c ∈ cs, ∀ c' ∈ cs',
    c.changes = true → c.cell = c'.cell → c.overlaps c' = true ∧ Stored h md c fs

theorem overlaps_changes {c c' : HCall} (ho : c.overlaps c' = true) :
    (∃ p t d, c = .writeChunk p t d) ∨ ∃ p a, c = .setAttributes p a := by
  cases c <;> cases c' <;> simp [HCall.overlaps] at ho <;> simp

/-- A call whose file is contended is one of those that may overlap, and its node or chunk is stored. -/
theorem contended_call (hs : ∀ q, GoodSep (md q).separator) (hfits : ∀ cs ∈ css, ∀ c ∈ cs, c.Fits h md)
    (hsep : Overlap h md css fs) {i : Nat} {cs : List HCall} (hi : css[i]? = some cs) {c : HCall} (hc : c ∈ cs) {l : Loc}
    (hl : filesOf h md c l) (hcon : Contended h md css l) :
    Stored h md c fs ∧ (∀ x, filesOf h md c x → Contended h md css x) ∧
      (c.changes = true → (∃ p t d, c = .writeChunk p t d) ∨ ∃ p a, c = .setAttributes p a) := by
  obtain ⟨a, b, ds, ds', d, d', ha, hb, hab, hd, hd', hch, hcell, hdl⟩ := hcon
  have fit : ∀ {k : Nat} {xs : List HCall} {x : HCall}, css[k]? = some xs → x ∈ xs → x.Fits h md :=
    fun h1 h2 => hfits _ (List.mem_of_getElem? h1) _ h2
  have ecd : c.cell = d.cell := cell_of_files hs (fit hi hc) (fit ha hd) hl hdl
  have hst : Stored h md c fs := by
    obtain ⟨x, h1, h2⟩ := (hsep a b ds ds' ha hb hab d hd d' hd' hch hcell).2
    exact ⟨x, files_of_cell (fit ha hd) (fit hi hc) ecd.symm h1, h2⟩
  refine ⟨hst, fun x hx => ⟨a, b, ds, ds', d, d', ha, hb, hab, hd, hd', hch, hcell,
    files_of_cell (fit hi hc) (fit ha hd) ecd hx⟩, fun hcc => ?_⟩
  by_cases hia : i = a
  · subst hia
    exact overlaps_changes (hsep i b cs ds' hi hb hab c hc d' hd' hcc (ecd.trans hcell)).1
  · exact overlaps_changes (hsep i a cs ds hi ha hia c hc d hd hcc ecd).1

/-- The calls have at most one visible access. -/
theorem visible_call (hb : Plain (segs h.base)) (hsfx : GoodSuffix h.entry)
    (hdot : '.' ∉ stripDot h.entry.metadataKeySuffix) (hs : ∀ q, GoodSep (md q).separator)
    (hfits : ∀ cs ∈ css, ∀ c ∈ cs, c.Fits h md) (hsep : Overlap h md css fs) {i : Nat} {cs : List HCall}
    (hi : css[i]? = some cs) {c : HCall} (hc : c ∈ cs) {p : Prog HResult} (hp : HCall.prog env h md c = some p) :
    p.Visible h fs.content (Own h md css) (Common h md css fs) (Owner h md css) i true := by
  have fit : ∀ {k : Nat} {xs : List HCall} {x : HCall}, css[k]? = some xs → x ∈ xs → x.Fits h md :=
    fun h1 h2 => hfits _ (List.mem_of_getElem? h1) _ h2
  have hok := fit hi hc
  by_cases hcon : ∃ l, filesOf h md c l ∧ Contended h md css l
  · obtain ⟨l, hl, hcon⟩ := hcon
    obtain ⟨hst, hall, hch⟩ := contended_call hs hfits hsep hi hc hl hcon
    have mine : ∀ x, filesOf h md c x → Mine (Own h md css) i x := fun x hx j hj => absurd (hall x hx) hj.1
    have mineI : ∀ q, OrdinaryPath h q → Mine (Own h md css) i (implicitLoc h q) := by
      rintro q hq j ⟨_, ds, d, h1, h2, _, h4⟩
      exact absurd (filesOf_fileLoc (fit h1 h2) h4) (implicit_not_file hs hq)
    have docs : ∀ q, OrdinaryPath h q → Plain (h.loc (arrayMetadataKey h.entry q)) ∧
        Plain (h.loc (groupMetadataKey h.entry q)) ∧ h.loc (arrayMetadataKey h.entry q) = docLoc h str!"array" q ∧
        h.loc (groupMetadataKey h.entry q) = docLoc h str!"group" q ∧
        Plain (h.loc (setExtension (setExtension (groupMetadataKey h.entry q) []) [])) ∧
        h.loc (setExtension (setExtension (groupMetadataKey h.entry q) []) []) = implicitLoc h q := by
      intro q hq
      have e : h.loc (setExtension (setExtension (groupMetadataKey h.entry q) []) []) = implicitLoc h q := by
        rw [Hier.loc, segs_implicitKey hsfx hdot hq.plain]; rfl
      refine ⟨?_, ?_, loc_arrayKey hsfx hq.plain, loc_groupKey hsfx hq.plain, ?_, e⟩
      · rw [loc_arrayKey hsfx hq.plain]; exact plain_docLoc hb hq.plain (by simp)
      · rw [loc_groupKey hsfx hq.plain]; exact plain_docLoc hb hq.plain (by simp)
      · rw [e]; exact hb.append (Plain.append (by decide) hq.plain)
    cases c with
    | remove q => simp [HCall.prog] at hp
    | createGroup q => rcases hch rfl with ⟨_, _, _, e⟩ | ⟨_, _, e⟩ <;> cases e
    | createArray q m => rcases hch rfl with ⟨_, _, _, e⟩ | ⟨_, _, e⟩ <;> cases e
    | deleteChunk q pos => rcases hch rfl with ⟨_, _, _, e⟩ | ⟨_, _, e⟩ <;> cases e
    | writeChunk q t d =>
      simp only [HCall.prog, Option.some.injEq] at hp
      subst hp
      refine Prog.Visible.record ⟨plain_loc_chunk hb hok.1.plain (hs _) _, .inr ⟨⟨hall _ rfl, ?_⟩, ?_, rfl, trivial⟩⟩
      · obtain ⟨x, h1, h2⟩ := hst
        cases h1
        exact h2
      · rintro j ⟨ds, p, a, h1, h2, h3⟩
        have := cell_of_files hs (fit hi hc) (fit h1 h2) rfl h3
        simp [HCall.cell] at this
    | readChunk q t pos =>
      simp only [HCall.prog, Option.some.injEq] at hp
      subst hp
      refine Prog.Visible.record ?_
      refine Prog.Visible.bind (p := pLift _) trivial fun _ => ?_
      refine vis_get (plain_loc_chunk hb hok.1.plain (hs _) _) (mine _ rfl) fun r => ?_
      refine Prog.Visible.bind (p := .done r) trivial fun v => ?_
      cases v with
      | none => trivial
      | some b => exact Prog.Visible.bind (p := pLift _) trivial fun _ => trivial
    | nodeExists q =>
      simp only [HCall.prog, Option.some.injEq] at hp
      subst hp
      obtain ⟨h1, h2, h3, h4, h5, h6⟩ := docs q hok
      refine Prog.Visible.record ?_
      exact (vis_exists h1 (mine _ (.inl h3))).bind fun _ => .ite trivial ((vis_exists h2 (mine _ (.inr h4))).bind fun _ =>
        .ite trivial (vis_exists h5 (h6 ▸ mineI q hok)))
    | arrayExists q =>
      simp only [HCall.prog, Option.some.injEq] at hp
      subst hp
      obtain ⟨h1, h2, h3, h4, h5, h6⟩ := docs q hok
      refine Prog.Visible.record ?_
      refine Prog.Visible.bind (p := nodeExists h q) ?_ fun _ => .ite ?_ trivial
      · exact (vis_exists h1 (mine _ (.inl h3))).bind fun _ => .ite trivial ((vis_exists h2 (mine _ (.inr h4))).bind fun _ =>
          .ite trivial (vis_exists h5 (h6 ▸ mineI q hok)))
      · refine vis_get h1 (mine _ (.inl h3)) fun r => ?_
        refine Prog.Visible.bind (Prog.Visible.record
          (Prog.Visible.bind (p := .done r) trivial fun _ => Prog.Visible.bind (p := pLift _) trivial fun _ => trivial)) fun r => ?_
        cases r <;> trivial
    | getArrayMetadata q =>
      simp only [HCall.prog, Option.some.injEq] at hp
      subst hp
      obtain ⟨h1, h2, h3, h4, _⟩ := docs q hok
      refine Prog.Visible.record (vis_get h1 (mine _ (.inl h3)) fun r => ?_)
      exact Prog.Visible.bind (p := .done r) trivial fun _ => Prog.Visible.bind (p := pLift _) trivial fun _ => trivial
    | listAttributes q =>
      simp only [HCall.prog, Option.some.injEq] at hp
      subst hp
      obtain ⟨h1, h2, h3, h4, _⟩ := docs q hok
      have rest : ∀ r : Outcome (Option Bytes), Prog.Visible h fs.content (Own h md css) (Common h md css fs) (Owner h md css) i false
          (Prog.bind (.done r) fun v => pLift (Outcome.ofOption .notFound v) >>= fun b =>
            pLift (Outcome.ofOption .json (env.json.parse b)) >>= fun j => pLift (docAttributes j)) := fun r =>
        Prog.Visible.bind (p := .done r) trivial fun _ => Prog.Visible.bind (p := pLift _) trivial fun _ =>
          Prog.Visible.bind (p := pLift _) trivial fun _ => trivial
      refine Prog.Visible.record ⟨h1, mine _ (.inl h3), fun v _ => ?_⟩
      cases v with
      | some b => exact vis_get h1 (mine _ (.inl h3)) rest
      | none =>
        refine ⟨h2, mine _ (.inr h4), fun v _ => ?_⟩
        cases v with
        | some b => exact vis_get h2 (mine _ (.inr h4)) rest
        | none => trivial
    | setAttributes q a =>
      simp only [HCall.prog, Option.some.injEq] at hp
      subst hp
      obtain ⟨h1, h2, h3, h4, _⟩ := docs q hok
      have own : ∀ x, filesOf h md (.setAttributes q a) x → Owner h md css i x := fun x hx => ⟨cs, q, a, hi, hc, hx⟩
      have only : ∀ x, filesOf h md (.setAttributes q a) x → ∀ j, Owner h md css j x → j = i := by
        rintro x hx j ⟨ds, p, a', k1, k2, k3⟩
        by_cases hij : i = j
        · exact hij.symm
        · have := hsep i j cs ds hi k1 hij _ hc _ k2 rfl (cell_of_files hs (fit hi hc) (fit k1 k2) hx k3)
          simp [HCall.overlaps] at this
      have rest : ∀ key, Plain (h.loc key) → filesOf h md (.setAttributes q a) (h.loc key) → (fs.content (h.loc key)).isSome →
          Prog.Visible h fs.content (Own h md css) (Common h md css fs) (Owner h md css) i true
          (pGet key >>= fun v => pLift (Outcome.ofOption .notFound v) >>= fun b =>
            pLift (Outcome.ofOption .json (env.json.parse b)) >>= fun j => pLift j.asObj >>= fun existing =>
            if mergedDoc existing a ≠ existing then
              pSet key (env.json.print (.obj (mergedDoc existing a)), .ok ())
            else pure ()) := by
        intro key k1 k2 k3
        refine ⟨k1, mine _ k2, .inl ⟨fun _ => own _ k2, fun v _ => ?_⟩⟩
        refine Prog.Visible.bind (p := .done (.ok v)) trivial fun _ => Prog.Visible.bind (p := pLift _) trivial fun _ =>
          Prog.Visible.bind (p := pLift _) trivial fun _ => Prog.Visible.bind (p := pLift _) trivial fun _ => .ite ?_ trivial
        exact ⟨k1, .inr ⟨⟨hall _ k2, k3⟩, only _ k2, rfl, trivial⟩⟩
      have sees : ∀ {key v}, filesOf h md (.setAttributes q a) (h.loc key) →
          Prog.Sees fs.content (Own h md css) (Common h md css fs) (h.loc key) v → v.isSome = (fs.content (h.loc key)).isSome := by
        intro key v k1 k2
        by_cases k3 : (fs.content (h.loc key)).isSome
        · rw [k3]; exact k2.2 ⟨hall _ k1, k3⟩
        · rw [k2.1 (fun x => k3 x.2) (fun j hj => hj.1 (hall _ k1))]
      refine Prog.Visible.record ⟨h1, mine _ (.inl h3), fun v hv => ?_⟩
      have e1 := sees (Or.inl h3) hv
      cases v with
      | some b => exact rest _ h1 (.inl h3) e1.symm
      | none =>
        refine ⟨h2, mine _ (.inr h4), fun v hv => ?_⟩
        have e2 := sees (Or.inr h4) hv
        cases v with
        | some b => exact rest _ h2 (.inr h4) e2.symm
        | none => trivial
  · have hnc : ∀ l, filesOf h md c l → ¬ Contended h md css l := fun l h1 h2 => hcon ⟨l, h1, h2⟩
    have hmine : ∀ l, Own h md css i l → Mine (Own h md css) i l := by
      rintro l ⟨k1, ds, d, k2, k3, k4, k5⟩ j ⟨_, es, e, j2, j3, j4, j5⟩
      by_cases hij : j = i
      · exact hij
      · exact absurd ⟨i, j, ds, es, d, e, k2, j2, Ne.symm hij, k3, j3, k4,
          cell_of_files hs (fit k2 k3) (fit j2 j3) k5 j5, k5⟩ k1
    refine Prog.Uses.visible (R := fun l => Mine (Own h md css) i l ∧ ¬ Common h md css fs l) (fun _ hl => hl)
      (fun l hl => ⟨hmine l hl, fun x => hl.1 x.1⟩) (uses_call hb hsfx hdot hs hok hp ?_ ?_)
    · rintro hch l (hl | ⟨q, hq, rfl⟩)
      · refine ⟨fun j hj => ?_, fun x => hnc l hl x.1⟩
        obtain ⟨_, es, e, j2, j3, j4, j5⟩ := hj
        by_cases hij : j = i
        · exact hij
        · exact absurd ⟨j, i, es, cs, e, c, j2, hi, hij, j3, hc, j4,
            cell_of_files hs (fit j2 j3) hok j5 hl, j5⟩ (hnc l hl)
      · refine ⟨fun j hj => ?_, fun x => ?_⟩
        · obtain ⟨_, es, e, j2, j3, j4, j5⟩ := hj
          exact absurd (filesOf_fileLoc (fit j2 j3) j5) (implicit_not_file hs hq)
        · obtain ⟨⟨_, _, _, _, _, _, j2, _, _, j3, _, _, _, j5⟩, _⟩ := x
          exact absurd (filesOf_fileLoc (fit j2 j3) j5) (implicit_not_file hs hq)
    · exact fun hch l hl => ⟨hnc l hl, cs, c, hi, hc, hch, hl⟩

theorem shared_layout (hwf : fs.WF) (hs : ∀ q, GoodSep (md q).separator)
    (hfits : ∀ cs ∈ css, ∀ c ∈ cs, c.Fits h md ∧ Unblocked h md c fs) :
    Layout fs (Own h md css) (Common h md css fs) := by
  have fit : ∀ {k : Nat} {xs : List HCall} {x : HCall}, css[k]? = some xs → x ∈ xs → x.Fits h md ∧ Unblocked h md x fs :=
    fun h1 h2 => hfits _ (List.mem_of_getElem? h1) _ h2
  refine ⟨hwf, ?_, ?_, ?_, fun i l h1 h2 => h1.1 h2.1⟩
  · rintro i l ⟨_, cs, c, h1, h2, h3, h4⟩
    exact (fit h1 h2).2 h3 l h4
  · rintro i j a b ⟨k1, cs, c, k2, k3, k4, k5⟩ ⟨_, ds, d, j2, j3, j4, j5⟩ hpre
    have e := FileLoc.antichain hs (filesOf_fileLoc (fit k2 k3).1 k5) (filesOf_fileLoc (fit j2 j3).1 j5) hpre
    refine ⟨e, ?_⟩
    by_cases hij : i = j
    · exact hij
    · exact absurd ⟨i, j, cs, ds, c, d, k2, j2, hij, k3, j3, k4,
        cell_of_files hs (fit k2 k3).1 (fit j2 j3).1 k5 (e ▸ j5), k5⟩ k1
  · rintro l ⟨_, h2⟩
    unfold Fs.content at h2
    cases hg : fs.get l with
    | none => rw [hg] at h2; simp at h2
    | some n =>
      cases n with
      | dir => rw [hg] at h2; simp at h2
      | file b => exact ⟨b, rfl⟩

/-- A log of calls on the map of contents is a history of calls on the filesystem. -/
theorem history_of_valid {W : Nat → Loc → Prop} {S : Loc → Prop} {fs0 fs : Fs} {M : Mem} (hl : Layout fs0 W S)
    (log : List (Nat × HCall × HResult))
    (hsh : ∀ x ∈ log, (HCall.prog env h md x.2.1).isSome ∧
      (HCall.prog' env h md x.2.1).Shares h fs0.content W S x.1)
    (hc : Change (Touched W S) fs0 fs) (hseen : Seen fs0.content W S fs.content)
    (hv : Valid h (HCall.prog' env h md) fs.content log M) :
    hResults env h md (log.map (·.2.1)) fs = log.map (·.2.2) ∧
      (hState env h md (log.map (·.2.1)) fs).content = M := by
  induction log generalizing fs with
  | nil => exact ⟨rfl, hv⟩
  | cons x log ih =>
    obtain ⟨i, c, r⟩ := x
    obtain ⟨h1, h2⟩ := hsh (i, c, r) (by simp)
    obtain ⟨p, hp⟩ := Option.isSome_iff_exists.mp h1
    dsimp only at h1 h2 hp
    have e : HCall.prog' env h md c = p := by rw [HCall.prog', hp]; rfl
    obtain ⟨k1, k2, k3, k4⟩ := Prog.run_shares hl _ h2 hc hseen
    rw [e, run_call hp] at k1 k2 k3 k4
    obtain ⟨v1, v2⟩ := hv
    rw [e] at v1 v2
    rw [v1] at k1
    rw [← k2] at v2
    obtain ⟨j1, j2⟩ := ih (fun x hx => hsh x (by simp [hx])) k3 k4 v2
    refine ⟨?_, j2⟩
    simp only [List.map_cons, hResults]
    rw [j1]
    congr 1
    exact Outcome.ok.inj k1

end

/-- **C77 (partial, shared nodes and chunks).** Calls made by several threads at the same time, interleaved
in any way, have the results they have when they are made one after the other in some order, and leave the
same files. Here also for threads that write and read the same chunk, and for one that sets the attributes of
a node others look at, if the chunk or node was stored before. The order is one in which each thread's calls
are in its own order. Missing: other calls about the same node or chunk (see `C77_violated` and
`C77_violated_attributes`), removal. -/
theorem C77_partial_shared (env : Env) (h : Hier) (md : List Str → ArrayMetadata) (css : List (List HCall))
    (ps : List (Prog (List HResult))) (fs : Fs) (hwf : fs.WF) (hb : Plain (segs h.base)) (hsfx : GoodSuffix h.entry)
    (hdot : '.' ∉ stripDot h.entry.metadataKeySuffix) (hs : ∀ q, GoodSep (md q).separator)
    (hfits : ∀ cs ∈ css, ∀ c ∈ cs, c.Fits h md ∧ Unblocked h md c fs)
    (hp : css.map (threadProg env h md) = ps.map some)
    (hsep : ∀ (i j : Nat) cs cs', css[i]? = some cs → css[j]? = some cs' → i ≠ j → ∀ c ∈ cs, ∀ c' ∈ cs',
      c.changes = true → c.cell = c'.cell → c.overlaps c' = true ∧ Stored h md c fs)
    (ts : List Nat) (s : Sys (List HResult))
    (hrun : (Sys.initial fs ps).run h ts = some s) (hall : ∀ i, i < css.length → (s.result i).isSome) :
    ∃ log : List (Nat × HCall × HResult), (∀ x ∈ log, x.1 < css.length) ∧
      (∀ (i : Nat) cs, css[i]? = some cs → (ofThread i log).map (·.1) = cs ∧
        s.result i = some (.ok ((ofThread i log).map (·.2)))) ∧
      hResults env h md (log.map (·.2.1)) fs = log.map (·.2.2) ∧
      s.fs.content = (hState env h md (log.map (·.2.1)) fs).content := by
  have hfit : ∀ cs ∈ css, ∀ c ∈ cs, c.Fits h md := fun cs h1 c h2 => (hfits cs h1 c h2).1
  have hpi : ∀ (i : Nat) cs, css[i]? = some cs → ∃ p, ps[i]? = some p ∧ threadProg env h md cs = some p := by
    intro i cs hi
    have h1 : (css.map (threadProg env h md))[i]? = (ps.map some)[i]? := by rw [hp]
    simp only [List.getElem?_map, hi, Option.map_some] at h1
    obtain ⟨p, h2, h3⟩ := Option.map_eq_some_iff.mp h1.symm
    exact ⟨p, h2, h3.symm⟩
  have hlen : css.length = ps.length := by simpa using congrArg List.length hp
  have hps : ps = css.map (seqProg (HCall.prog' env h md)) := by
    apply List.ext_getElem?
    intro i
    rw [List.getElem?_map]
    cases hc : css[i]? with
    | none =>
      rw [List.getElem?_eq_none_iff] at hc
      simp only [Option.map_none, List.getElem?_eq_none_iff]
      omega
    | some cs =>
      obtain ⟨p, h1, h2⟩ := hpi i cs hc
      rw [h1, (threadProg_seq h2).1]; rfl
  have hsome : ∀ (i : Nat) cs, css[i]? = some cs → ∀ c ∈ cs, (HCall.prog env h md c).isSome := by
    intro i cs hi
    obtain ⟨p, _, h2⟩ := hpi i cs hi
    exact (threadProg_seq h2).2
  have hlay := shared_layout hwf hs hfits
  have hvis : ∀ (i : Nat) cs, css[i]? = some cs → ∀ c ∈ cs,
      (HCall.prog' env h md c).Visible h fs.content (Own h md css) (Common h md css fs) (Owner h md css) i true := by
    intro i cs hi c hc
    obtain ⟨p, hp⟩ := Option.isSome_iff_exists.mp (hsome i cs hi c hc)
    have e : HCall.prog' env h md c = p := by rw [HCall.prog', hp]; rfl
    rw [e]
    exact visible_call hb hsfx hdot hs hfit hsep hi hc hp
  have hC : Calls h (HCall.prog' env h md) fs.content (Own h md css) (Common h md css fs) (Owner h md css) css := by
    refine ⟨hlay.apart, ?_, fun i j l h1 h2 => (hlay.sep i j l l h1 h2 (List.prefix_refl _)).2, hvis,
      fun _ _ c _ m => prog'_total c m⟩
    rintro i l ⟨_, cs, _, h1, _⟩
    exact (List.getElem?_eq_some_iff.mp h1).1
  rw [hps] at hrun
  obtain ⟨log, h1, h2, h3⟩ := serializable hlay hC hrun hall
  obtain ⟨j1, j2⟩ := history_of_valid hlay log (fun x hx => by
    obtain ⟨cs, hcs⟩ : ∃ cs, css[x.1]? = some cs := ⟨_, List.getElem?_eq_getElem (h2 x hx)⟩
    have hm : x.2.1 ∈ cs := by
      rw [← (h3 x.1 cs hcs).1]
      exact List.mem_map.mpr ⟨x.2, List.mem_map.mpr ⟨x, List.mem_filter.mpr ⟨hx, by simp⟩, rfl⟩, rfl⟩
    exact ⟨hsome _ cs hcs _ hm, (hvis _ cs hcs _ hm).shares⟩) (.refl hwf)
    (fun l => ⟨fun _ _ => rfl, fun x => x.2⟩) h1
  exact ⟨log, h2, h3, j1, j2.symm⟩

/-! ### A concrete case -/

/-- The calls before the threads start: an array with a chunk and a group. -/
def sharedBefore : List HCall :=
  [.createArray Demo.path Demo.arr, .createGroup str!"/a", .writeChunk Demo.path .u16 Demo.chunk]

/-- The filesystem the threads start with. -/
def sharedFs : Fs := hState Demo.envJ Demo.hier (fun _ => Demo.arr) sharedBefore Demo.emptyFs

/-- Two threads write the same chunk and one of them reads it; one sets the attributes of a group and one
lists them. -/
def sharedThreads : List (List HCall) :=
  [[.writeChunk Demo.path .u16 Demo.chunk, .readChunk str!"a/b" .u16 [1]],
   [.writeChunk Demo.path .u16 ⟨[1], [(1#16 : BitVec 16), (2#16 : BitVec 16)]⟩],
   [.setAttributes str!"/a" Demo.newAttrs],
   [.listAttributes str!"a", .nodeExists str!"/a"]]

theorem sharedFs_holds : Holds Demo.envJ Demo.hier (fun _ => Demo.arr) (absState sharedBefore AbsHier.empty) sharedFs := by
  refine holds_state jsonText_lawful (by decide) (by unfold GoodSuffix; decide) (by decide) (fun _ => .inl rfl)
    (.fresh (by decide) (fun _ => .inl rfl) Demo.emptyFs_wf Demo.fresh) sharedBefore fun c hc => Demo.history_ok c ?_
  simp only [sharedBefore, List.mem_cons, List.not_mem_nil, or_false] at hc
  rcases hc with rfl | rfl | rfl <;> simp [Demo.history]

theorem sharedThreads_fits : ∀ cs ∈ sharedThreads, ∀ c ∈ cs, c.Fits Demo.hier fun _ => Demo.arr := by
  have hold : ∀ c ∈ Demo.history, c.Fits Demo.hier fun _ => Demo.arr := fun c hc => (Demo.history_ok c hc).fits
  have hnode : ∀ q, (HCall.writeChunk Demo.path .u16 ⟨[1], q⟩).Fits Demo.hier fun _ => Demo.arr := fun q =>
    ⟨(hold (.writeChunk Demo.path .u16 Demo.chunk) (by simp [Demo.history])).1, rfl⟩
  have hset := hold (.createGroup str!"/a") (by simp [Demo.history])
  intro cs h1 c h2
  simp only [sharedThreads, List.mem_cons, List.not_mem_nil, or_false] at h1
  rcases h1 with rfl | rfl | rfl | rfl <;> simp only [List.mem_cons, List.not_mem_nil, or_false] at h2
  · rcases h2 with rfl | rfl
    · exact hold _ (by simp [Demo.history])
    · exact hold _ (by simp [Demo.history])
  · subst h2; exact hnode _
  · subst h2; exact hset
  · rcases h2 with rfl | rfl
    · exact hold _ (by simp [Demo.history])
    · exact hset

set_option maxRecDepth 20000 in
theorem sharedFs_chunk : (sharedFs.content (Demo.hier.loc (chunkKey Demo.path Demo.arr [1]))).isSome := by decide +kernel

set_option maxRecDepth 20000 in
theorem sharedFs_group : (sharedFs.content (docLoc Demo.hier str!"group" str!"/a")).isSome := by decide +kernel

theorem sharedThreads_sep (i j : Nat) (cs cs' : List HCall) (hi : sharedThreads[i]? = some cs)
    (hj : sharedThreads[j]? = some cs') (hij : i ≠ j) (c : HCall) (hc : c ∈ cs) (c' : HCall) (hc' : c' ∈ cs')
    (hch : c.changes = true) (hcell : c.cell = c'.cell) :
    c.overlaps c' = true ∧ Stored Demo.hier (fun _ => Demo.arr) c sharedFs := by
  have hx : ∀ (k : Nat) ds, sharedThreads[k]? = some ds → k = 0 ∨ k = 1 ∨ k = 2 ∨ k = 3 := by
    intro k ds hk
    have := (List.getElem?_eq_some_iff.mp hk).1
    simp [sharedThreads] at this
    omega
  have hst : Stored Demo.hier (fun _ => Demo.arr) c sharedFs := by
    rcases hx i cs hi with rfl | rfl | rfl | rfl <;> cases Option.some.inj hi <;>
      simp only [List.mem_cons, List.not_mem_nil, or_false] at hc
    · rcases hc with rfl | rfl
      · exact ⟨_, rfl, sharedFs_chunk⟩
      · simp [HCall.changes] at hch
    · subst hc; exact ⟨_, rfl, sharedFs_chunk⟩
    · subst hc; exact ⟨_, .inr rfl, sharedFs_group⟩
    · rcases hc with rfl | rfl <;> simp [HCall.changes] at hch
  refine ⟨?_, hst⟩
  rcases hx i cs hi with rfl | rfl | rfl | rfl <;> rcases hx j cs' hj with rfl | rfl | rfl | rfl <;>
    first
    | exact absurd rfl hij
    | (cases Option.some.inj hi; cases Option.some.inj hj
       simp only [List.mem_cons, List.not_mem_nil, or_false] at hc hc'
       (try rcases hc with rfl | rfl) <;> (try rcases hc' with rfl | rfl) <;> (try subst hc) <;> (try subst hc') <;>
         first
         | rfl
         | exact absurd hch (by decide)
         | exact absurd hcell (by simp [HCall.cell]))

/-- The threads meet the hypotheses. -/
example (ts : List Nat) (s : Sys (List HResult))
    (hrun : (Sys.initial sharedFs (sharedThreads.filterMap
      (threadProg Demo.envJ Demo.hier fun _ => Demo.arr))).run Demo.hier ts = some s)
    (hall : ∀ i, i < 4 → (s.result i).isSome) :
    ∃ log : List (Nat × HCall × HResult), (∀ x ∈ log, x.1 < 4) ∧
      (∀ (i : Nat) cs, sharedThreads[i]? = some cs → (ofThread i log).map (·.1) = cs ∧
        s.result i = some (.ok ((ofThread i log).map (·.2)))) ∧
      hResults Demo.envJ Demo.hier (fun _ => Demo.arr) (log.map (·.2.1)) sharedFs = log.map (·.2.2) ∧
      s.fs.content = (hState Demo.envJ Demo.hier (fun _ => Demo.arr) (log.map (·.2.1)) sharedFs).content :=
  C77_partial_shared Demo.envJ Demo.hier (fun _ => Demo.arr) sharedThreads _ sharedFs sharedFs_holds.wf (by decide)
    (by unfold GoodSuffix; decide) (by decide) (fun _ => .inl rfl)
    (fun cs h1 c h2 => ⟨sharedThreads_fits cs h1 c h2, fun _ l hl =>
      sharedFs_holds.clear l (filesOf_fileLoc (sharedThreads_fits cs h1 c h2) hl)⟩)
    rfl sharedThreads_sep ts s hrun hall

end Threads

end Zarr
