import Verif.Lemmas.SoloWalk
import Verif.Lemmas.Confine
/-!
# What a thread sees of the filesystem

A thread that stays below some roots takes the same steps in two filesystems that agree below the roots, if
in one of them the directories above the roots exist and in the other no file is in their place. -/

namespace Zarr

theorem Fs.WF.del_dir {fs : Fs} (h : fs.WF) {l : Loc} (hne : l ≠ []) (hc : fs.children l = []) : (fs.del l).WF where
  nodup := Fs.nodup_filter h.nodup _
  root := by rw [Fs.get_del, if_neg (Ne.symm hne)]; exact h.root
  parent := by
    intro l' s' n hn'
    rw [Fs.get_del] at hn' ⊢
    split at hn'
    · simp at hn'
    · have hd := h.parent _ _ _ hn'
      split
      · rename_i heq
        subst heq
        have := (Fs.mem_children h).mpr hn'
        rw [hc] at this
        simp at this
      · exact hd

theorem Fs.WF.put_file_over {fs : Fs} (h : fs.WF) {l : Loc} {b b' : Bytes} (hl : fs.get l = some (.file b)) :
    (fs.put l (.file b')).WF := by
  have hne : l ≠ [] := by
    rintro rfl
    rw [h.root] at hl; simp at hl
  have e1 := List.dropLast_concat_getLast hne
  rw [← e1] at hl ⊢
  exact h.put_file (h.parent _ _ _ hl) (by rw [hl]; simp)

namespace Wide

/-- The location is at or below one of the roots. -/
def Under (roots : List Loc) (l : Loc) : Prop := ∃ r ∈ roots, r <+: l

/-- The same as a test. -/
def under (roots : List Loc) (l : Loc) : Bool := roots.any fun r => r.isPrefixOf l

theorem under_iff {roots : List Loc} {l : Loc} : under roots l = true ↔ Under roots l := by
  simp [under, Under]

theorem under_false {roots : List Loc} {l : Loc} (h : ¬ Under roots l) : under roots l = false := by
  cases hb : under roots l with
  | false => rfl
  | true => exact absurd (under_iff.mp hb) h

theorem Under.below {roots : List Loc} {l l' : Loc} (h : Under roots l) (hp : l <+: l') : Under roots l' := by
  obtain ⟨r, h1, h2⟩ := h
  exact ⟨r, h1, h2.trans hp⟩

theorem Under.mono {a b : List Loc} (hab : ∀ r ∈ a, r ∈ b) {l : Loc} (h : Under a l) : Under b l := by
  obtain ⟨r, h1, h2⟩ := h
  exact ⟨r, hab r h1, h2⟩

/-- The location is above one of the roots, but not below any. -/
def Above (roots : List Loc) (l : Loc) : Prop := ¬ Under roots l ∧ ∃ r ∈ roots, l <+: r

theorem Above.of_prefix {roots : List Loc} {l p : Loc} (hp : Under roots p) (hl : l <+: p) (hn : ¬ Under roots l) :
    Above roots l := by
  obtain ⟨r, h1, h2⟩ := hp
  refine ⟨hn, r, h1, ?_⟩
  rcases List.prefix_or_prefix_of_prefix hl h2 with h3 | h3
  · exact h3
  · exact absurd ⟨r, h1, h3⟩ hn

/-- The entries below the roots. -/
def part (roots : List Loc) (fs : Fs) : List (Loc × Node) := fs.ents.filter fun e => under roots e.1

/-- The two filesystems agree below the roots; in the second the directories above the roots exist, and in
the first nothing prevents them. -/
structure Twin (roots : List Loc) (fs fs' : Fs) : Prop where
  wf : fs.WF
  wf' : fs'.WF
  named : fs.Named
  named' : fs'.Named
  part : part roots fs = part roots fs'
  above : ∀ l, Above roots l → ∀ b, fs.get l ≠ some (.file b)
  above' : ∀ l, Above roots l → fs'.get l = some .dir

section
variable {roots : List Loc} {fs fs' : Fs}

theorem get_part {l : Loc} (hl : Under roots l) (fs : Fs) : fs.get l = Fs.lookup (Wide.part roots fs) l := by
  have := Fs.lookup_filter fs.ents (under roots) l
  unfold Wide.part Fs.get
  rw [this, under_iff.mpr hl]
  simp

theorem Twin.get (T : Twin roots fs fs') {l : Loc} (hl : Under roots l) : fs.get l = fs'.get l := by
  rw [get_part hl, get_part hl, T.part]

theorem Twin.node (T : Twin roots fs fs') {p : Loc} (hp : Plain p) (hl : Under roots p) : fs.node p = fs'.node p := by
  rw [Fs.node_plain T.wf hp, Fs.node_plain T.wf' hp, T.get hl]

theorem Twin.isFile (T : Twin roots fs fs') {p : Loc} (hp : Plain p) (hl : Under roots p) :
    fs.isFile p = fs'.isFile p := by unfold Fs.isFile; rw [T.node hp hl]

theorem Twin.isFile_above (T : Twin roots fs fs') {p : Loc} (hp : Plain p) (hl : Above roots p) :
    fs.isFile p = fs'.isFile p := by
  unfold Fs.isFile
  rw [Fs.node_plain T.wf hp, Fs.node_plain T.wf' hp, T.above' p hl]
  cases hg : fs.get p with
  | none => rfl
  | some n =>
    cases n with
    | dir => rfl
    | file b => exact absurd hg (T.above p hl b)

theorem Twin.isDir (T : Twin roots fs fs') {p : Loc} (hp : Plain p) (hl : Under roots p) :
    fs.isDir p = fs'.isDir p := by unfold Fs.isDir; rw [T.node hp hl]

theorem Twin.pathExists (T : Twin roots fs fs') {p : Loc} (hp : Plain p) (hl : Under roots p) :
    fs.pathExists p = fs'.pathExists p := by unfold Fs.pathExists; rw [T.node hp hl]

theorem Twin.dirable (T : Twin roots fs fs') {p : Loc} (hl : Under roots p) : fs.dirable p ↔ fs'.dirable p := by
  constructor
  · intro hd l hlp b
    by_cases hu : Under roots l
    · rw [← T.get hu]; exact hd l hlp b
    · rw [T.above' l (.of_prefix hl hlp hu)]; simp
  · intro hd l hlp b
    by_cases hu : Under roots l
    · rw [T.get hu]; exact hd l hlp b
    · exact T.above l (.of_prefix hl hlp hu) b

/-- The parent of the location can be told apart by looking below the roots, or it is there. -/
def Near (roots : List Loc) (fs : Fs) (p : Loc) : Prop := Under roots p.dropLast ∨ fs.get p.dropLast = some .dir

theorem Near.below {p q : Loc} (h : Near roots fs p) (hp : Under roots p) (hq : p <+: q) : Near roots fs q := by
  by_cases e : p = q
  · rw [← e]; exact h
  · obtain ⟨t, rfl⟩ := hq
    have ht : t ≠ [] := by rintro rfl; simp at e
    refine .inl ?_
    rw [List.dropLast_append_of_ne_nil ht]
    exact hp.below (List.prefix_append _ _)

theorem Twin.parent_dir (T : Twin roots fs fs') {p : Loc} (hu : Under roots p)
    (hd : fs.get p.dropLast = some .dir) : fs'.get p.dropLast = some .dir := by
  by_cases h : Under roots p.dropLast
  · rw [← T.get h]; exact hd
  · exact T.above' _ (.of_prefix hu (List.dropLast_prefix p) h)

theorem Twin.locate (T : Twin roots fs fs') {p : Loc} (hp : Plain p) (hne : p ≠ []) (hu : Under roots p)
    (hn : Near roots fs p) :
    (fs.get p.dropLast = some .dir ∧ fs.locate p = .ok p ∧ fs'.locate p = .ok p) ∨
      ∃ e, fs.locate p = .err e ∧ fs'.locate p = .err e := by
  have e1 := List.dropLast_concat_getLast hne
  by_cases hd : fs.get p.dropLast = some .dir
  · have hd' := T.parent_dir hu hd
    refine .inl ⟨hd, ?_, ?_⟩
    · have := Fs.locate_plain_dir T.wf (p := p.dropLast) (s := p.getLast hne) (by rw [e1]; exact hp) hd
      rwa [e1] at this
    · have := Fs.locate_plain_dir T.wf' (p := p.dropLast) (s := p.getLast hne) (by rw [e1]; exact hp) hd'
      rwa [e1] at this
  · have hup : Under roots p.dropLast := hn.resolve_right hd
    have hd' : fs'.get p.dropLast ≠ some .dir := by rw [← T.get hup]; exact hd
    have h1 := Fs.locate_err T.wf (p := p.dropLast) (s := p.getLast hne) (by rw [e1]; exact hp) hd
    have h2 := Fs.locate_err T.wf' (p := p.dropLast) (s := p.getLast hne) (by rw [e1]; exact hp) hd'
    rw [e1] at h1 h2
    right
    rcases h1 with ⟨a1, a2⟩ | ⟨a1, a2⟩
    · rcases h2 with ⟨b1, b2⟩ | ⟨b1, b2⟩
      · exact ⟨_, a1, b1⟩
      · exact absurd ((T.dirable hup).mp a2) b2
    · rcases h2 with ⟨b1, b2⟩ | ⟨b1, b2⟩
      · exact absurd ((T.dirable hup).mpr b2) a2
      · exact ⟨_, a1, b1⟩

theorem Twin.locate_eq (T : Twin roots fs fs') {p : Loc} (hp : Plain p) (hne : p ≠ []) (hu : Under roots p)
    (hn : Near roots fs p) : fs.locate p = fs'.locate p := by
  rcases T.locate hp hne hu hn with ⟨_, h1, h2⟩ | ⟨e, h1, h2⟩ <;> rw [h1, h2]

theorem near_of_get (hwf : fs.WF) {p : Loc} (hne : p ≠ []) (h : fs.get p ≠ none) : Near roots fs p := by
  obtain ⟨n, hn⟩ := Option.ne_none_iff_exists'.mp h
  have e1 := List.dropLast_concat_getLast hne
  rw [← e1] at hn
  exact .inr (hwf.parent _ _ _ hn)

theorem children_part {l : Loc} (hl : Under roots l) (fs : Fs) : fs.children l = Fs.children ⟨part roots fs⟩ l := by
  unfold Fs.children part
  refine (filterMap_filter_of ?_ fs.ents).symm
  rintro ⟨k, n⟩ hb
  simp only
  cases hr : k.reverse with
  | nil => rfl
  | cons s r =>
    simp only
    rw [if_neg]
    rintro rfl
    have hk : k = r.reverse ++ [s] := by
      have := congrArg List.reverse hr; simpa using this
    have : under roots k = true := by rw [hk]; exact under_iff.mpr (hl.below (List.prefix_append _ _))
    simp [this] at hb

theorem Twin.children (T : Twin roots fs fs') {l : Loc} (hl : Under roots l) : fs.children l = fs'.children l := by
  rw [children_part hl fs, children_part hl fs', T.part]

/-! ## Changes -/

theorem part_put {l : Loc} (hl : Under roots l) (fs : Fs) (n : Node) :
    part roots (fs.put l n) = Fs.insert (part roots fs) l n := by
  unfold part Fs.put
  exact filter_insert_of_pos fs.ents n (under_iff.mpr hl)

theorem part_put_of_not {l : Loc} (hl : ¬ Under roots l) (fs : Fs) (n : Node) :
    part roots (fs.put l n) = part roots fs := by
  unfold part Fs.put
  exact filter_insert_of_neg fs.ents n (under_false hl)

theorem part_del (l : Loc) (fs : Fs) : part roots (fs.del l) = (part roots fs).filter fun e => e.1 ≠ l := by
  unfold part Fs.del
  rw [List.filter_filter, List.filter_filter]
  exact List.filter_congr fun e _ => Bool.and_comm _ _

theorem part_del_of_not {l : Loc} (hl : ¬ Under roots l) (fs : Fs) : part roots (fs.del l) = part roots fs := by
  rw [part_del]
  refine List.filter_eq_self.mpr fun e he => ?_
  unfold part at he
  rw [List.mem_filter] at he
  have : e.1 ≠ l := fun e' => hl (under_iff.mp (e' ▸ he.2))
  simpa using this

theorem Twin.put_both (T : Twin roots fs fs') {l : Loc} (hl : Under roots l) (hp : Plain l) {n : Node}
    (hw : (fs.put l n).WF) (hw' : (fs'.put l n).WF) : Twin roots (fs.put l n) (fs'.put l n) where
  wf := hw
  wf' := hw'
  named := T.named.put hp n
  named' := T.named'.put hp n
  part := by rw [part_put hl, part_put hl, T.part]
  above := by
    intro x hx b
    rw [Fs.get_put, if_neg]
    · exact T.above x hx b
    · rintro rfl; exact hx.1 hl
  above' := by
    intro x hx
    rw [Fs.get_put, if_neg]
    · exact T.above' x hx
    · rintro rfl; exact hx.1 hl

theorem Twin.del_both (T : Twin roots fs fs') {l : Loc} (hl : Under roots l)
    (hw : (fs.del l).WF) (hw' : (fs'.del l).WF) : Twin roots (fs.del l) (fs'.del l) where
  wf := hw
  wf' := hw'
  named := T.named.del l
  named' := T.named'.del l
  part := by rw [part_del, part_del, T.part]
  above := by
    intro x hx b
    rw [Fs.get_del, if_neg]
    · exact T.above x hx b
    · rintro rfl; exact hx.1 hl
  above' := by
    intro x hx
    rw [Fs.get_del, if_neg]
    · exact T.above' x hx
    · rintro rfl; exact hx.1 hl

/-- A change another thread may make: something at or below its roots, or a directory above them. -/
inductive Eff (wroots : List Loc) (fs : Fs) : Fs → Prop
  | same : Eff wroots fs fs
  | write (l : Loc) (n : Node) : Under wroots l → Eff wroots fs (fs.put l n)
  | mkdir (l : Loc) : fs.get l = none → (∃ w ∈ wroots, l <+: w) → Eff wroots fs (fs.put l .dir)
  | del (l : Loc) : Under wroots l → Eff wroots fs (fs.del l)

/-- No root of the one is above or below one of the other. -/
def Apart (wroots roots : List Loc) : Prop := ∀ w ∈ wroots, ∀ r ∈ roots, ¬ w <+: r ∧ ¬ r <+: w

theorem Apart.not_under {wroots : List Loc} (ha : Apart wroots roots) {l : Loc} (hl : Under wroots l) :
    ¬ Under roots l := by
  obtain ⟨w, h1, h2⟩ := hl
  rintro ⟨r, h3, h4⟩
  rcases List.prefix_or_prefix_of_prefix h2 h4 with h5 | h5
  · exact (ha w h1 r h3).1 h5
  · exact (ha w h1 r h3).2 h5

theorem Apart.not_above {wroots : List Loc} (ha : Apart wroots roots) {l : Loc} (hl : Under wroots l) :
    ¬ Above roots l := by
  obtain ⟨w, h1, h2⟩ := hl
  rintro ⟨_, r, h3, h4⟩
  exact (ha w h1 r h3).1 (h2.trans h4)

theorem Apart.not_under' {wroots : List Loc} (ha : Apart wroots roots) {l : Loc} (hl : ∃ w ∈ wroots, l <+: w) :
    ¬ Under roots l := by
  obtain ⟨w, h1, h2⟩ := hl
  rintro ⟨r, h3, h4⟩
  exact (ha w h1 r h3).2 (h4.trans h2)

theorem Eff.part_eq {wroots : List Loc} (ha : Apart wroots roots) {fs1 : Fs} (he : Eff wroots fs fs1) :
    part roots fs1 = part roots fs := by
  cases he with
  | same => rfl
  | write l n hl => exact part_put_of_not (ha.not_under hl) fs n
  | mkdir l _ hl => exact part_put_of_not (ha.not_under' hl) fs _
  | del l hl => exact part_del_of_not (ha.not_under hl) fs

theorem Eff.get_above {wroots : List Loc} (ha : Apart wroots roots) {fs1 : Fs} (he : Eff wroots fs fs1) {l : Loc}
    (hl : Above roots l) : fs1.get l = fs.get l ∨ (fs.get l = none ∧ fs1.get l = some .dir) := by
  cases he with
  | same => exact .inl rfl
  | write x n hx =>
    rw [Fs.get_put, if_neg]
    · exact .inl rfl
    · rintro rfl; exact ha.not_above hx hl
  | mkdir x hn _ =>
    rw [Fs.get_put]
    by_cases e : l = x
    · subst e; exact .inr ⟨hn, by simp⟩
    · rw [if_neg e]; exact .inl rfl
  | del x hx =>
    rw [Fs.get_del, if_neg]
    · exact .inl rfl
    · rintro rfl; exact ha.not_above hx hl

theorem Twin.other {wroots : List Loc} (T : Twin roots fs fs') (ha : Apart wroots roots) {fs1 : Fs}
    (he : Eff wroots fs fs1) (hw : fs1.WF) (hn : fs1.Named) : Twin roots fs1 fs' where
  wf := hw
  wf' := T.wf'
  named := hn
  named' := T.named'
  part := by rw [he.part_eq ha, T.part]
  above := by
    intro l hl b hb
    rcases he.get_above ha hl with e | ⟨_, e⟩
    · exact T.above l hl b (e ▸ hb)
    · rw [e] at hb; simp at hb
  above' := T.above'

/-- A directory above the roots is made. -/
theorem Twin.dig (T : Twin roots fs fs') {l : Loc} (hl : Above roots l) (hp : Plain l) (hw : (fs.put l .dir).WF) :
    Twin roots (fs.put l .dir) fs' where
  wf := hw
  wf' := T.wf'
  named := T.named.put hp _
  named' := T.named'
  part := by rw [part_put_of_not hl.1, T.part]
  above := by
    intro x hx b
    rw [Fs.get_put]
    split
    · simp
    · exact T.above x hx b
  above' := T.above'

/-- `mkdir` in both. -/
theorem Twin.mkdir (T : Twin roots fs fs') {p : Loc} (hp : Plain p) (hne : p ≠ []) (hu : Under roots p)
    (hn : Near roots fs p) :
    (fs.get p.dropLast = some .dir ∧ fs.get p = none ∧ fs.mkdir p = .ok (fs.put p .dir) ∧
      fs'.mkdir p = .ok (fs'.put p .dir) ∧ Twin roots (fs.put p .dir) (fs'.put p .dir)) ∨
      ∃ e, fs.mkdir p = .err e ∧ fs'.mkdir p = .err e ∧ (e = .notFound → fs.get p.dropLast ≠ some .dir) := by
  have e1 := List.dropLast_concat_getLast hne
  rcases T.locate hp hne hu hn with ⟨hd, h1, h2⟩ | ⟨e, h1, h2⟩
  · have hd' := T.parent_dir hu hd
    have hg := T.get hu
    cases hc : fs.get p with
    | some n =>
      rw [hc] at hg
      exact .inr ⟨.alreadyExists, by simp [Fs.mkdir, h1, hc], by simp [Fs.mkdir, h2, ← hg], by simp⟩
    | none =>
      rw [hc] at hg
      have w : (fs.put p .dir).WF := by
        have := T.wf.put_dir (s := p.getLast hne) hd; rwa [e1] at this
      have w' : (fs'.put p .dir).WF := by
        have := T.wf'.put_dir (s := p.getLast hne) hd'; rwa [e1] at this
      exact .inl ⟨hd, rfl, by simp [Fs.mkdir, h1, hc], by simp [Fs.mkdir, h2, ← hg], T.put_both hu hp w w'⟩
  · refine .inr ⟨e, by simp [Fs.mkdir, h1], by simp [Fs.mkdir, h2], fun _ hd => ?_⟩
    have := Fs.locate_plain_dir T.wf (p := p.dropLast) (s := p.getLast hne) (by rw [e1]; exact hp) hd
    rw [e1, h1] at this
    simp at this

/-- `open` with `create` in both. -/
theorem Twin.openCreate (T : Twin roots fs fs') {p : Loc} (hp : Plain p) (hne : p ≠ []) (hu : Under roots p)
    (hn : Near roots fs p) :
    (∃ b, fs.get p = some (.file b) ∧ Fs.openCreate p fs = .ok (p, fs) ∧ Fs.openCreate p fs' = .ok (p, fs')) ∨
    (Fs.openCreate p fs = .ok (p, fs.put p (.file [])) ∧ Fs.openCreate p fs' = .ok (p, fs'.put p (.file [])) ∧
      Twin roots (fs.put p (.file [])) (fs'.put p (.file []))) ∨
    ∃ e, Fs.openCreate p fs = .err e ∧ Fs.openCreate p fs' = .err e := by
  have e1 := List.dropLast_concat_getLast hne
  rcases T.locate hp hne hu hn with ⟨hd, h1, h2⟩ | ⟨e, h1, h2⟩
  · have hd' := T.parent_dir hu hd
    have hg := T.get hu
    cases hc : fs.get p with
    | some n =>
      rw [hc] at hg
      cases n with
      | dir => exact .inr (.inr ⟨.isADirectory, by simp [Fs.openCreate, h1, hc], by simp [Fs.openCreate, h2, ← hg]⟩)
      | file b => exact .inl ⟨b, rfl, by simp [Fs.openCreate, h1, hc], by simp [Fs.openCreate, h2, ← hg]⟩
    | none =>
      rw [hc] at hg
      have w : (fs.put p (.file [])).WF := by
        have := T.wf.put_file (s := p.getLast hne) (b := []) hd (by rw [e1, hc]; simp); rwa [e1] at this
      have w' : (fs'.put p (.file [])).WF := by
        have := T.wf'.put_file (s := p.getLast hne) (b := []) hd' (by rw [e1, ← hg]; simp); rwa [e1] at this
      exact .inr (.inl ⟨by simp [Fs.openCreate, h1, hc], by simp [Fs.openCreate, h2, ← hg], T.put_both hu hp w w'⟩)
  · exact .inr (.inr ⟨e, by simp [Fs.openCreate, h1], by simp [Fs.openCreate, h2]⟩)

/-- `rmdir` in both. -/
theorem Twin.rmdir (T : Twin roots fs fs') {p : Loc} (hp : Plain p) (hne : p ≠ []) (hu : Under roots p)
    (hn : Near roots fs p) :
    (fs.rmdir p = .ok (fs.del p) ∧ fs'.rmdir p = .ok (fs'.del p) ∧ Twin roots (fs.del p) (fs'.del p)) ∨
    ∃ e, fs.rmdir p = .err e ∧ fs'.rmdir p = .err e := by
  rcases T.locate hp hne hu hn with ⟨hd, h1, h2⟩ | ⟨e, h1, h2⟩
  · have hg := T.get hu
    have hch := T.children hu
    cases hc : fs.get p with
    | none =>
      rw [hc] at hg
      exact .inr ⟨.notFound, by simp [Fs.rmdir, h1, hc], by simp [Fs.rmdir, h2, ← hg]⟩
    | some n =>
      rw [hc] at hg
      cases n with
      | file b => exact .inr ⟨.notADirectory, by simp [Fs.rmdir, h1, hc], by simp [Fs.rmdir, h2, ← hg]⟩
      | dir =>
        by_cases hcn : fs.children p = []
        · have hcn' : fs'.children p = [] := hch ▸ hcn
          exact .inl ⟨by simp [Fs.rmdir, h1, hc, hne, hcn], by simp [Fs.rmdir, h2, ← hg, hne, hcn'],
            T.del_both hu (T.wf.del_dir hne hcn) (T.wf'.del_dir hne hcn')⟩
        · have hcn' : fs'.children p ≠ [] := hch ▸ hcn
          exact .inr ⟨.other, by simp [Fs.rmdir, h1, hc, hcn], by simp [Fs.rmdir, h2, ← hg, hcn']⟩
  · exact .inr ⟨e, by simp [Fs.rmdir, h1], by simp [Fs.rmdir, h2]⟩

end

end Wide

end Zarr
