import Verif.Lemmas.LinkSpare
import Verif.Props.Links
/-!
# Removal and symbolic links: C104

Spec: `Spec.StraightLinks` is at the beginning of `Lemmas/LinkCut.lean`, the other notions are those of C99. -/

namespace Zarr.Links

open LFs _root_.Zarr.Spec _root_.Zarr.Links.Spec

section
variable {α β : Type} {D : List Str → Prop}

theorem passes_bind {p : Wide.Prog α} {f : α → Wide.Prog β} (hp : Passes D p) (hf : ∀ a, Passes D (f a)) :
    Passes D (p.bind f) := by
  induction p with
  | done r => cases r with
    | ok a => exact hf a
    | err e => trivial
    | panic => trivial
  | «exists» key k ih => exact ⟨hp.1, fun r => ih r (hp.2 r)⟩
  | get key k ih => exact ⟨hp.1, fun r => ih r (hp.2 r)⟩
  | set key v k ih => exact ⟨hp.1, fun r => ih r (hp.2 r)⟩
  | erase key k ih => exact ⟨hp.1, hp.2.1, hp.2.2.1, fun r => ih r (hp.2.2.2 r)⟩
  | erasePrefix key k ih => exact ⟨hp.1, hp.2.1, hp.2.2.1, fun r => ih r (hp.2.2.2 r)⟩
  | listDir key k ih =>
    exact ⟨hp.1, fun r r' h => congrArg (fun q => q.bind f) (hp.2.1 r r' h), fun r => ih r (hp.2.2 r)⟩

theorem passes_record {p : Wide.Prog α} {f : Outcome α → β} (hp : Passes D p) : Passes D (p.record f) := by
  induction p with
  | done r => trivial
  | «exists» key k ih => exact ⟨hp.1, fun r => ih r (hp.2 r)⟩
  | get key k ih => exact ⟨hp.1, fun r => ih r (hp.2 r)⟩
  | set key v k ih => exact ⟨hp.1, fun r => ih r (hp.2 r)⟩
  | erase key k ih => exact ⟨hp.1, hp.2.1, hp.2.2.1, fun r => ih r (hp.2.2.2 r)⟩
  | erasePrefix key k ih => exact ⟨hp.1, hp.2.1, hp.2.2.1, fun r => ih r (hp.2.2.2 r)⟩
  | listDir key k ih =>
    exact ⟨hp.1, fun r r' h => congrArg (fun q => q.record f) (hp.2.1 r r' h), fun r => ih r (hp.2.2 r)⟩

end

/-- The keys that `remove` erases. -/
def Spec.removedKeys (h : Hier) (path : Str) : List Str :=
  [groupMetadataKey h.entry path, arrayMetadataKey h.entry path, dataPathKey path]

theorem removedKeys_plain {h : Hier} {path key : Str} (hs : GoodSuffix h.entry) (hp : Plain (segs path))
    (hk : key ∈ removedKeys h path) : Plain (segs key) ∧ segs key ≠ [] := by
  simp only [removedKeys, List.mem_cons, List.not_mem_nil, or_false] at hk
  rcases hk with rfl | rfl | rfl
  · rw [segs_groupMetadataKey hs hp]; exact ⟨plain_extLast_meta hp (by simp), by simp [extLast]⟩
  · rw [segs_arrayMetadataKey hs hp]; exact ⟨plain_extLast_meta hp (by simp), by simp [extLast]⟩
  · rw [segs_dataPathKey]
    exact ⟨Plain.append (a := [str!"data", str!"root"]) (by decide) hp, by simp⟩

theorem passes_remove {h : Hier} {path : Str} {D : List Str → Prop} (hs : GoodSuffix h.entry) (hp : Plain (segs path))
    (hD : ∀ key ∈ removedKeys h path, D (segs key)) : Passes D (Wide.remove h path) := by
  have k := fun {key} (hk : key ∈ removedKeys h path) => And.intro (removedKeys_plain hs hp hk) (hD key hk)
  have k1 := k (key := groupMetadataKey h.entry path) (by simp [removedKeys])
  have k2 := k (key := arrayMetadataKey h.entry path) (by simp [removedKeys])
  have k3 := k (key := dataPathKey path) (by simp [removedKeys])
  unfold Wide.remove
  refine passes_bind ⟨k1.1.1, k1.1.2, k1.2, fun _ => trivial⟩ fun _ =>
    passes_bind ⟨k2.1.1, k2.1.2, k2.2, fun _ => trivial⟩ fun _ =>
    passes_bind ⟨k3.1.1, k3.1.2, k3.2, fun _ => trivial⟩ fun _ => trivial

/-- The keys that a call erases one by one: the chunk deleted, and the metadata of the node removed. -/
def Spec.erasedKeys (h : Hier) (md : List Str → ArrayMetadata) : WCall → List Str
  | .call (.call (.deleteChunk p pos)) => [chunkKey p (md (segs p)) pos]
  | .call (.call (.remove p)) => [groupMetadataKey h.entry p, arrayMetadataKey h.entry p]
  | _ => []

/-- The whole claim: calls, `remove` among them, do on a hierarchy with symbolic links in it what they do on one that
has files and directories in their place. No link is broken, no two paths below the base directory lead to the same file
or directory, and none of the files erased one by one is a link to a directory. -/
def Spec.RemovesThroughLinks : Prop := ∀ (env : Env) (h : Hier) (md : List Str → ArrayMetadata) (cs : List WCall),
  Plain (segs h.base) → GoodSuffix h.entry → '.' ∉ stripDot h.entry.metadataKeySuffix → (∀ q, GoodSep (md q).separator) →
  (∀ c ∈ cs, Plain (segs c.path)) → ∀ (s : LFs) (fs : Fs), Shows (segs h.base) s fs → Single (segs h.base) s →
  (∀ c ∈ cs, ∀ key ∈ erasedKeys h md c, ¬ LinkToDir s (h.loc key)) →
  (results (storeErasePrefix h) env h md cs s).1 = (wResults env h md cs fs).map .ok ∧
  Shows (segs h.base) (results (storeErasePrefix h) env h md cs s).2 (wState env h md cs fs)

/-- **C104**, as far as it holds: the data directory of a node removed must not itself be a link, and links must not go up
after going down, as they might go through the directories removed. -/
theorem C104_partial (env : Env) (h : Hier) (md : List Str → ArrayMetadata) (cs : List WCall)
    (hb : Plain (segs h.base)) (hs : GoodSuffix h.entry) (hd : '.' ∉ stripDot h.entry.metadataKeySuffix)
    (hm : ∀ q, GoodSep (md q).separator) (hp : ∀ c ∈ cs, Plain (segs c.path)) (s : LFs) (fs : Fs)
    (hsh : Shows (segs h.base) s fs) (h1 : Single (segs h.base) s)
    (hE : ∀ c ∈ cs, ∀ key ∈ erasedKeys h md c, ¬ LinkToDir s (h.loc key))
    (hst : StraightLinks s) (hR : ∀ p, .call (.call (.remove p)) ∈ cs → ¬ LinkToDir s (h.loc (dataPathKey p))) :
    (results (storeErasePrefix h) env h md cs s).1 = (wResults env h md cs fs).map .ok ∧
    Shows (segs h.base) (results (storeErasePrefix h) env h md cs s).2 (wState env h md cs fs) ∧
    Single (segs h.base) (results (storeErasePrefix h) env h md cs s).2 := by
  have main : ∀ (D : List Str → Prop) (cs : List WCall) (s : LFs) (fs : Fs), (∀ c ∈ cs, Plain (segs c.path)) →
      (∀ c ∈ cs, ∀ key ∈ erasedKeys h md c, D (segs key)) →
      (∀ p, .call (.call (.remove p)) ∈ cs → D (segs (dataPathKey p))) →
      Fine (segs h.base) D s fs →
      (results (storeErasePrefix h) env h md cs s).1 = (wResults env h md cs fs).map .ok ∧
      Fine (segs h.base) D (results (storeErasePrefix h) env h md cs s).2 (wState env h md cs fs) := by
    intro D cs
    induction cs with
    | nil => intro s fs _ _ _ g; exact ⟨rfl, g⟩
    | cons c cs ih =>
      intro s fs hp hE hR g
      have hT : Passes D (Wide.callProg env h md c) := by
        by_cases hr : ∃ p, c = .call (.call (.remove p))
        · obtain ⟨p, rfl⟩ := hr
          have hmem : WCall.call (.call (.remove p)) ∈ WCall.call (.call (.remove p)) :: cs := List.mem_cons_self
          have hpp : Plain (segs p) := hp _ hmem
          refine passes_record (passes_remove hs hpp fun key hk => ?_)
          simp only [removedKeys, List.mem_cons, List.not_mem_nil, or_false] at hk
          rcases hk with rfl | rfl | rfl
          · exact hE _ hmem _ (by simp [erasedKeys])
          · exact hE _ hmem _ (by simp [erasedKeys])
          · exact hR p hmem
        · refine passes_of_through (w := true) _ (through_call hb hs hd hm (hp c (by simp)) (.inl rfl)
            (fun p e => hr ⟨p, e⟩) ?_)
          rintro p pos rfl
          exact hE _ List.mem_cons_self _ (by simp [erasedKeys])
      obtain ⟨i1, i2⟩ := run_fine hb _ hT g
      rw [Wide.run_call] at i1 i2
      obtain ⟨j1, j2⟩ := ih _ _ (fun c hc => hp c (by simp [hc])) (fun c hc => hE c (by simp [hc]))
        (fun p hm => hR p (by simp [hm])) i2
      refine ⟨?_, j2⟩
      show _ :: _ = List.map _ (_ :: _)
      rw [List.map_cons, i1, j1]
  obtain ⟨a1, a2⟩ := main
    (fun q => (∃ c ∈ cs, ∃ key ∈ erasedKeys h md c, q = segs key) ∨
      ∃ p, .call (.call (.remove p)) ∈ cs ∧ q = segs (dataPathKey p)) cs s fs hp
    (fun c hc key hk => .inl ⟨c, hc, key, hk, rfl⟩) (fun p hm => .inr ⟨p, hm, rfl⟩)
    ⟨⟨hsh, fun _ => h1, fun _ q hq _ _ => by
      rcases hq with ⟨c, hc, key, hk, rfl⟩ | ⟨p, hm, rfl⟩
      · exact hE c hc key hk
      · exact hR p hm⟩, hst⟩
  exact ⟨a1, a2.good.shows, a2.good.single rfl⟩

/-! ## What is behind links is kept -/

theorem storeErase_less {B : Loc → Prop} {s s1 : LFs} {h : Hier} {key : Str} (hl : Less B s s1) (ht : Tree s)
    (hp : Plain (h.loc key)) (hat : At B s (h.loc key)) : Less B s (storeErase h key s1).2 := by
  obtain ⟨t, e1, e2⟩ := getPath_loc (h := h) (key := key) hp
  unfold storeErase
  rw [e1]
  simp only
  rw [e2]
  split
  · cases hu : s1.unlink (h.loc key) with
    | ok s2 => exact unlink_less hl ht hat hu
    | err e => exact hl
    | panic => exact hl
  · exact hl

theorem storeErasePrefix_less {B : Loc → Prop} {s s1 : LFs} {h : Hier} {key : Str} (hl : Less B s s1) (ht : Tree s)
    (hp : Plain (h.loc key)) (hat : ∀ e0 n, s.locateEntry (h.loc key) = .ok (e0, n) → ∀ l, e0 <+: l → B l) :
    Less B s (storeErasePrefix h key s1).2 := by
  obtain ⟨t, e1, e2⟩ := getPath_loc (h := h) (key := key) hp
  unfold storeErasePrefix
  rw [e1]
  simp only
  rw [e2]
  split
  · have := removeAll_less hl ht hat
    split
    · rename_i e; rw [e] at this; exact this
    · rename_i e; rw [e] at this; exact this
    · rename_i e; rw [e] at this; exact this
  · exact hl

theorem remove_state {α : Type} (prune : Str → LFs → Outcome Bool × LFs) (h : Hier) (path : Str) (f : Outcome Unit → α)
    (s : LFs) :
    let s1 := (storeErase h (groupMetadataKey h.entry path) s).2
    let s2 := (storeErase h (arrayMetadataKey h.entry path) s1).2
    let s' := (run prune h ((Wide.remove h path).record f) s).2
    s1 = s' ∨ s2 = s' ∨ (prune (dataPathKey path) s2).2 = s' := by
  dsimp only
  unfold Wide.remove
  simp only [bind, pure, Wide.Prog.bind, Wide.Prog.record, run]
  generalize storeErase h (groupMetadataKey h.entry path) s = a
  obtain ⟨a, s1⟩ := a
  cases a with
  | err e => exact .inl rfl
  | panic => exact .inl rfl
  | ok x =>
    simp only [Wide.Prog.bind, Wide.Prog.record, run]
    generalize storeErase h (arrayMetadataKey h.entry path) s1 = a
    obtain ⟨a, s2⟩ := a
    cases a with
    | err e => exact .inr (.inl rfl)
    | panic => exact .inr (.inl rfl)
    | ok x =>
      simp only [Wide.Prog.bind, Wide.Prog.record, run]
      generalize prune (dataPathKey path) s2 = a
      obtain ⟨a, s3⟩ := a
      cases a <;> exact .inr (.inr rfl)

/-- **C104** (what is kept). Whatever links there are and whatever it returns, `remove` leaves all files, directories and
links as they are that are not the metadata files of the node and not in its data directory: what the links in the
directory lead to is kept. -/
theorem C104_spares (env : Env) (h : Hier) (md : List Str → ArrayMetadata) (path : Str) (hb : Plain (segs h.base))
    (hs : GoodSuffix h.entry) (hp : Plain (segs path)) (s : LFs) (ht : Tree s) (l : Loc)
    (hg : ∀ n, s.locateEntry (h.loc (groupMetadataKey h.entry path)) ≠ .ok (l, n))
    (ha : ∀ n, s.locateEntry (h.loc (arrayMetadataKey h.entry path)) ≠ .ok (l, n))
    (hd : ∀ l' n, s.locateEntry (h.loc (dataPathKey path)) = .ok (l', n) → ¬ l' <+: l) :
    let s' := (run (storeErasePrefix h) h (Wide.callProg env h md (.call (.call (.remove path)))) s).2
    s'.fs.get l = s.fs.get l ∧ s'.linkAt l = s.linkAt l := by
  intro s'
  have k : ∀ key ∈ removedKeys h path, Plain (h.loc key) := fun key hk => hb.append (removedKeys_plain hs hp hk).1
  have k1 := k (groupMetadataKey h.entry path) (by simp [removedKeys])
  have k2 := k (arrayMetadataKey h.entry path) (by simp [removedKeys])
  have k3 := k (dataPathKey path) (by simp [removedKeys])
  let B : Loc → Prop := fun x => (∃ n, s.locateEntry (h.loc (groupMetadataKey h.entry path)) = .ok (x, n)) ∨
    (∃ n, s.locateEntry (h.loc (arrayMetadataKey h.entry path)) = .ok (x, n)) ∨
    ∃ l' n, s.locateEntry (h.loc (dataPathKey path)) = .ok (l', n) ∧ l' <+: x
  have g1 : Less B s (storeErase h (groupMetadataKey h.entry path) s).2 :=
    storeErase_less (.refl _ _) ht k1 fun l n e => .inl ⟨n, e⟩
  have g2 : Less B s (storeErase h (arrayMetadataKey h.entry path) (storeErase h (groupMetadataKey h.entry path) s).2).2 :=
    storeErase_less g1 ht k2 fun l n e => .inr (.inl ⟨n, e⟩)
  have g3 := storeErasePrefix_less (key := dataPathKey path) g2 ht k3 fun l' n e l hl => .inr (.inr ⟨l', n, e, hl⟩)
  have main : Less B s s' := by
    rcases remove_state (storeErasePrefix h) h path (fun r => WResult.plain (.plain (.unit r))) s with e | e | e
    · rw [e] at g1; exact g1
    · rw [e] at g2; exact g2
    · rw [e] at g3; exact g3
  refine main.same l ?_
  rintro (⟨n, e⟩ | ⟨n, e⟩ | ⟨l', n, e, hpre⟩)
  · exact hg n e
  · exact ha n e
  · exact hd l' n e hpre

/-! ## Where the whole claim fails -/

/-- The hierarchy of `Demo.placeA` with the data of its array on another disk: `/h/data/root/a` is a link to `/disk/a`. -/
def demoOnDisk : LFs where
  fs := ⟨[([], .dir), ([str!"disk"], .dir)] ++ Demo.placeA.ents.filterMap fun e =>
      if [str!"h", str!"data", str!"root", str!"a"] <+: e.1 then some ([str!"disk", str!"a"] ++ e.1.drop 4, e.2)
      else if e.1 = [] then none else some e⟩
  links := [([str!"h", str!"data", str!"root", str!"a"], ⟨true, [str!"disk", str!"a"]⟩)]

theorem demoOnDisk_shows : Shows [str!"h"] demoOnDisk Demo.placeA := shows_of_check (by decide +kernel)

theorem demoOnDisk_single : Single [str!"h"] demoOnDisk := single_of_check demoOnDisk_shows (by decide +kernel)

/-- What a call returned, if that is nothing or a truth value. -/
def unitOf : Outcome WResult → Option (Outcome Unit)
  | .ok (.plain (.plain (.unit r))) => some r
  | _ => none

@[inherit_doc unitOf]
def boolOf : Outcome WResult → Option (Outcome Bool)
  | .ok (.plain (.plain (.bool r))) => some r
  | _ => none

/-- The array can be read. Its removal fails with `NotFound`: the link has been removed by then, and so has the
metadata. -/
example : storeGet Demo.hier (chunkKey str!"a" Demo.arr [1]) demoOnDisk ≠ .ok none ∧
    let s := results (storeErasePrefix Demo.hier) Demo.envJ Demo.hier (fun _ => Demo.arr) [.call (.call (.remove str!"a"))]
      demoOnDisk
    s.1.map unitOf = [some (.err .notFound)] ∧
    ((wResults Demo.envJ Demo.hier (fun _ => Demo.arr) [.call (.call (.remove str!"a"))] Demo.placeA).map .ok).map unitOf =
      [some (.ok ())] ∧
    s.2.linkAt [str!"h", str!"data", str!"root", str!"a"] = none ∧
    s.2.fs.get [str!"h", str!"meta", str!"root", str!"a.array.json"] = none ∧
    s.2.fs.get [str!"disk", str!"a", str!"c1"] ≠ none := by
  decide +kernel

/-- **C104** does not hold: if the data directory of a node is a symbolic link, `remove` fails. -/
theorem C104_violated : ¬ RemovesThroughLinks := by
  intro hall
  have := (hall Demo.envJ Demo.hier (fun _ => Demo.arr) [.call (.call (.remove str!"a"))] (by decide)
    (by unfold GoodSuffix; decide) (by decide) (fun _ => .inl rfl) (by decide) demoOnDisk Demo.placeA demoOnDisk_shows
    demoOnDisk_single (by
      intro c hc key hk hl
      simp only [List.mem_cons, List.not_mem_nil, or_false] at hc
      subst hc
      simp only [erasedKeys, List.mem_cons, List.not_mem_nil, or_false] at hk
      have h2 := hl.2
      rcases hk with rfl | rfl <;> exact absurd h2 (by decide +kernel))).1
  exact absurd (congrArg (List.map unitOf) this) (by decide +kernel)

/-- The metadata of a group behind a link that goes through the data directory of an array and up again. -/
def demoThrough : LFs where
  fs := ⟨([str!"shared"], .dir) :: Demo.placeA.ents.map fun e =>
      if e.1 = [str!"h", str!"meta", str!"root", str!"g.group.json"] then ([str!"shared", str!"g.json"], e.2) else e⟩
  links := [([str!"h", str!"meta", str!"root", str!"g.group.json"], ⟨false, [dotdot, dotdot, str!"data", str!"root", str!"a",
    dotdot, dotdot, dotdot, dotdot, str!"shared", str!"g.json"]⟩)]

theorem demoThrough_shows : Shows [str!"h"] demoThrough Demo.placeA := shows_of_check (by decide +kernel)

theorem demoThrough_single : Single [str!"h"] demoThrough := single_of_check demoThrough_shows (by decide +kernel)

/-- **C104** does not hold, for another reason: a link that goes through the data directory of a node is broken by its
removal, and another node is lost. -/
theorem C104_violated_through : ∃ s fs, Shows [str!"h"] s fs ∧ Single [str!"h"] s ∧
    ¬ LinkToDir s (Demo.hier.loc (dataPathKey str!"a")) ∧
    let cs : List WCall := [.call (.call (.remove str!"a")), .call (.call (.nodeExists str!"g"))]
    ((wResults Demo.envJ Demo.hier (fun _ => Demo.arr) cs fs).map .ok).map boolOf = [none, some (.ok true)] ∧
    (results (storeErasePrefix Demo.hier) Demo.envJ Demo.hier (fun _ => Demo.arr) cs s).1.map boolOf =
      [none, some (.ok false)] := by
  refine ⟨demoThrough, Demo.placeA, demoThrough_shows, demoThrough_single, ?_, by decide +kernel⟩
  rintro ⟨⟨l, n, h1, h2⟩, _⟩
  have : demoThrough.locateEntry (Demo.hier.loc (dataPathKey str!"a")) =
      .ok ([str!"h", str!"data", str!"root", str!"a"], 40) := by decide +kernel
  rw [this] at h1
  cases h1
  exact absurd h2 (by decide +kernel)

/-! ## Examples -/

/-- The data directory of an array with links in it: a chunk is a link to `/disk/c1`, and `/h/data/root/a/sub` is a link to
the directory `/disk/sub`, which is not empty. -/
def demoInside : LFs where
  fs := ⟨[([], .dir), ([str!"disk"], .dir), ([str!"disk", str!"sub"], .dir), ([str!"disk", str!"sub", str!"c0"], .file [7])] ++
    Demo.placeA.ents.filterMap fun e =>
      if e.1 = [str!"h", str!"data", str!"root", str!"a", str!"c1"] then some ([str!"disk", str!"c1"], e.2)
      else if e.1 = [] then none else some e⟩
  links := [([str!"h", str!"data", str!"root", str!"a", str!"c1"], ⟨true, [str!"disk", str!"c1"]⟩),
    ([str!"h", str!"data", str!"root", str!"a", str!"sub"], ⟨false, [dotdot, dotdot, dotdot, dotdot, str!"disk", str!"sub"]⟩)]

/-- What it shows. -/
def demoInsidePlain : Fs := ⟨Demo.placeA.ents ++ [([str!"h", str!"data", str!"root", str!"a", str!"sub"], .dir),
  ([str!"h", str!"data", str!"root", str!"a", str!"sub", str!"c0"], .file [7])]⟩

theorem demoInside_shows : Shows [str!"h"] demoInside demoInsidePlain := shows_of_check (by decide +kernel)

theorem demoInside_single : Single [str!"h"] demoInside := single_of_check demoInside_shows (by decide +kernel)

theorem demoInside_straight : StraightLinks demoInside := by
  intro e he
  simp only [demoInside, List.mem_cons, List.not_mem_nil, or_false] at he
  rcases he with rfl | rfl
  · exact ⟨0, _, rfl, by decide⟩
  · exact ⟨4, [str!"disk", str!"sub"], by decide, by decide⟩

/-- The theorem for it. -/
example : let cs : List WCall := [.call (.call (.readChunk str!"a" .u16 [1])), .call (.call (.remove str!"a")),
      .call (.call (.readChunk str!"a" .u16 [1])), .call (.call (.nodeExists str!"g"))]
    (results (storeErasePrefix Demo.hier) Demo.envJ Demo.hier (fun _ => Demo.arr) cs demoInside).1 =
      (wResults Demo.envJ Demo.hier (fun _ => Demo.arr) cs demoInsidePlain).map .ok :=
  (C104_partial Demo.envJ Demo.hier (fun _ => Demo.arr) _ (by decide) (by unfold GoodSuffix; decide) (by decide)
    (fun _ => .inl rfl) (by decide) demoInside demoInsidePlain demoInside_shows demoInside_single
    (by
      intro c hc key hk hl
      have h2 := hl.2
      simp only [List.mem_cons, List.not_mem_nil, or_false] at hc
      rcases hc with rfl | rfl | rfl | rfl <;> simp only [erasedKeys, List.mem_cons, List.not_mem_nil, or_false] at hk
      rcases hk with rfl | rfl <;> exact absurd h2 (by decide +kernel))
    demoInside_straight
    (by
      intro p hm
      simp only [List.mem_cons, List.not_mem_nil, or_false, WCall.call.injEq, BCall.call.injEq, reduceCtorEq,
        HCall.remove.injEq, false_or] at hm
      subst hm
      rintro ⟨⟨l, n, h1, h2⟩, _⟩
      have : demoInside.locateEntry (Demo.hier.loc (dataPathKey str!"a")) =
          .ok ([str!"h", str!"data", str!"root", str!"a"], 40) := by decide +kernel
      rw [this] at h1
      cases h1
      exact absurd h2 (by decide +kernel))).1

/-- The links are gone and what they led to is not. -/
example : let s := (results (storeErasePrefix Demo.hier) Demo.envJ Demo.hier (fun _ => Demo.arr)
      [.call (.call (.remove str!"a"))] demoInside)
    s.1.map unitOf = [some (.ok ())] ∧ s.2.links = [] ∧
    s.2.fs.get [str!"h", str!"data", str!"root", str!"a"] = none ∧
    s.2.fs.get [str!"disk", str!"c1"] = demoInside.fs.get [str!"disk", str!"c1"] ∧
    s.2.fs.get [str!"disk", str!"c1"] ≠ none ∧
    s.2.fs.get [str!"disk", str!"sub", str!"c0"] = some (.file [7]) := by
  decide +kernel

/-- `C104_spares` for a file behind a link. -/
example : let s' := (run (storeErasePrefix Demo.hier) Demo.hier
      (Wide.callProg Demo.envJ Demo.hier (fun _ => Demo.arr) (.call (.call (.remove str!"a")))) demoInside).2
    s'.fs.get [str!"disk", str!"sub", str!"c0"] = demoInside.fs.get [str!"disk", str!"sub", str!"c0"] ∧
    s'.linkAt [str!"disk", str!"sub", str!"c0"] = demoInside.linkAt [str!"disk", str!"sub", str!"c0"] := by
  have e1 : demoInside.locateEntry (Demo.hier.loc (groupMetadataKey Demo.hier.entry str!"a")) =
      .ok ([str!"h", str!"meta", str!"root", str!"a.group.json"], 40) := by decide +kernel
  have e2 : demoInside.locateEntry (Demo.hier.loc (arrayMetadataKey Demo.hier.entry str!"a")) =
      .ok ([str!"h", str!"meta", str!"root", str!"a.array.json"], 40) := by decide +kernel
  have e3 : demoInside.locateEntry (Demo.hier.loc (dataPathKey str!"a")) =
      .ok ([str!"h", str!"data", str!"root", str!"a"], 40) := by decide +kernel
  refine C104_spares Demo.envJ Demo.hier _ str!"a" (by decide) (by unfold GoodSuffix; decide) (by decide) demoInside
    demoInside_shows.tree _ ?_ ?_ ?_
  · intro n h; rw [e1] at h; simp at h
  · intro n h; rw [e2] at h; simp at h
  · intro l' n h; rw [e3] at h; cases h; decide

end Zarr.Links
