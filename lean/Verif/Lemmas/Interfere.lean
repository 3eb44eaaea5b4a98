import Verif.Lemmas.Threads
/-!
# Threads that use different files

The invariant behind C75: what a thread sees of the filesystem is what it would see alone. -/

namespace Zarr.Threads

/-- The files as a map. -/
abbrev Mem := Loc → Option Bytes

/-- Change the map at one location. -/
def upd (m : Mem) (l : Loc) (v : Option Bytes) : Mem := fun x => if x = l then v else m x

namespace Prog
variable {α : Type} (h : Hier)

/-- What a program does to a map from locations to contents. -/
def eval : Prog α → Mem → Outcome α × Mem
  | .done r, m => (r, m)
  | .exists key k, m => (k (.ok (m (h.loc key)).isSome)).eval m
  | .get key k, m => (k (.ok (m (h.loc key)))).eval m
  | .set key v k, m => (k v.2).eval (upd m (h.loc key) (some v.1))
  | .erase key k, m => (k (.ok true)).eval (upd m (h.loc key) none)

/-- A bound on the number of its steps. -/
def cost : Prog α → Mem → Nat
  | .done _, _ => 0
  | .exists key k, m => 1 + (k (.ok (m (h.loc key)).isSome)).cost m
  | .get key k, m => 4 + ((m (h.loc key)).getD []).length + (k (.ok (m (h.loc key)))).cost m
  | .set key v k, m => 3 * (h.loc key).length + v.1.length + 8 + (k v.2).cost (upd m (h.loc key) (some v.1))
  | .erase key k, m => 6 + (k (.ok true)).cost (upd m (h.loc key) none)

/-- The program only reads files at locations in `R` or `W` and only changes files at locations in `W`,
whatever the calls return. -/
def Uses (R W : Loc → Prop) : Prog α → Prop
  | .done _ => True
  | .exists key k => Plain (h.loc key) ∧ (R (h.loc key) ∨ W (h.loc key)) ∧ ∀ r, (k r).Uses R W
  | .get key k => Plain (h.loc key) ∧ (R (h.loc key) ∨ W (h.loc key)) ∧ ∀ r, (k r).Uses R W
  | .set key _ k => Plain (h.loc key) ∧ W (h.loc key) ∧ ∀ r, (k r).Uses R W
  | .erase key k => Plain (h.loc key) ∧ W (h.loc key) ∧ ∀ r, (k r).Uses R W

end Prog

/-- What a step of a thread that changes files at `W` does to the filesystem. -/
structure Change (W : Loc → Prop) (fs fs' : Fs) : Prop where
  wf : fs'.WF
  get : ∀ l, fs'.get l = fs.get l ∨ (fs.get l = none ∧ fs'.get l = some .dir ∧ ∃ w, W w ∧ l <+: w ∧ l ≠ w) ∨
    (W l ∧ fs.get l ≠ some .dir ∧ fs'.get l ≠ some .dir)

section
variable {W : Loc → Prop} {fs fs' : Fs}

theorem Change.refl (hwf : fs.WF) : Change W fs fs := ⟨hwf, fun _ => .inl rfl⟩

theorem Change.dir (hc : Change W fs fs') {l : Loc} (hl : fs.get l = some .dir) : fs'.get l = some .dir := by
  rcases hc.get l with e | ⟨e, _⟩ | ⟨_, e, _⟩
  · rw [e, hl]
  · rw [hl] at e; simp at e
  · exact absurd hl e

theorem Change.content (hc : Change W fs fs') {l : Loc} (hl : ¬ W l) : fs'.content l = fs.content l := by
  rcases hc.get l with e | ⟨e1, e2, _⟩ | ⟨e, _⟩
  · exact Fs.content_congr e
  · simp [Fs.content, e1, e2]
  · exact absurd e hl

theorem Change.writable (hc : Change W fs fs') {l : Loc} (hw : Writable fs l)
    (h1 : ∀ a, W a → a <+: l → a = l) (h2 : ∀ a, W a → l <+: a → a = l) : Writable fs' l := by
  constructor
  · intro x hx hne b hb
    rcases hc.get x with e | ⟨_, e, _⟩ | ⟨e, _⟩
    · exact hw.1 x hx hne b (e ▸ hb)
    · rw [e] at hb; simp at hb
    · exact hne (h1 x e hx)
  · intro hd
    rcases hc.get l with e | ⟨_, _, w, e1, e2, e3⟩ | ⟨_, _, e⟩
    · exact hw.2 (e ▸ hd)
    · exact e3 (h2 w e1 e2).symm
    · exact e hd

theorem Change.trans {fs'' : Fs} (hown : ∀ a b, W a → W b → a <+: b → a = b) (h1 : Change W fs fs')
    (h2 : Change W fs' fs'') : Change W fs fs'' := by
  refine ⟨h2.wf, fun l => ?_⟩
  rcases h2.get l with e | ⟨e1, e2, w, e3, e4, e5⟩ | ⟨e1, e2, e3⟩
  · rw [e]; exact h1.get l
  · rcases h1.get l with d | ⟨_, d, _⟩ | ⟨d, _⟩
    · exact .inr (.inl ⟨d ▸ e1, e2, w, e3, e4, e5⟩)
    · rw [d] at e1; simp at e1
    · exact absurd (hown _ _ d e3 e4) e5
  · rcases h1.get l with d | ⟨_, d, _⟩ | ⟨_, d, _⟩
    · exact .inr (.inr ⟨e1, d ▸ e2, e3⟩)
    · exact absurd d e2
    · exact .inr (.inr ⟨e1, d, e3⟩)

/-- The outcomes of `mkdir` on the way to a file that can be written. -/
theorem mkdir_take (hwf : fs.WF) {p : Loc} (hp : Plain p) (hw : Writable fs p) {n : Nat} (h0 : n ≠ 0)
    (hn : n < p.length) :
    (fs.mkdir (p.take n) = .ok (fs.put (p.take n) .dir) ∧ fs.get (p.take n) = none ∧
      (fs.put (p.take n) .dir).WF) ∨
    (fs.mkdir (p.take n) = .err .alreadyExists ∧ fs.get (p.take n) = some .dir) ∨
    (fs.mkdir (p.take n) = .err .notFound ∧ fs.get (p.take (n - 1)) ≠ some .dir) := by
  obtain ⟨m, rfl⟩ : ∃ m, n = m + 1 := ⟨n - 1, by omega⟩
  have hm : m < p.length := by omega
  have e : p.take (m + 1) = p.take m ++ [p[m]] := by rw [List.take_append_getElem]
  have pl : Plain (p.take m ++ [p[m]]) := by
    rw [← e]; exact fun hx => hp (List.mem_of_mem_take hx)
  have hstrict : ∀ x, x <+: p.take (m + 1) → ∀ b, fs.get x ≠ some (.file b) := by
    intro x hx b
    refine hw.1 x (hx.trans (List.take_prefix _ _)) ?_ b
    intro e
    have := hx.length_le
    rw [e] at this
    simp at this
    omega
  have hd := Fs.mkdir_plain hwf pl
  rw [e, Nat.add_sub_cancel]
  rw [e] at hstrict
  by_cases hg : fs.get (p.take m) = some .dir
  · rw [hg] at hd
    simp only at hd
    cases hx : fs.get (p.take m ++ [p[m]]) with
    | none => rw [hx] at hd; exact .inl ⟨hd, rfl, hwf.put_dir hg⟩
    | some nd =>
      rw [hx] at hd
      cases nd with
      | dir => exact .inr (.inl ⟨hd, rfl⟩)
      | file b => exact absurd hx (hstrict _ (List.prefix_refl _) b)
  · refine .inr (.inr ⟨?_, hg⟩)
    rcases Fs.locate_err hwf pl hg with ⟨e1, _⟩ | ⟨_, e2⟩
    · unfold Fs.mkdir; rw [e1]
    · exact absurd (fun x hx b => hstrict x (hx.trans (List.prefix_append _ _)) b) e2

theorem writable_split {p : Loc} (hwf : fs.WF) (hw : Writable fs p) : ∃ q s, p = q ++ [s] := by
  by_cases e : p = []
  · subst e; exact absurd hwf.root hw.2
  · exact ⟨_, _, (List.dropLast_concat_getLast e).symm⟩

end

/-! ## The invariant of a thread -/

/-- The thread at `pc`, reading `R` and changing `W`, will return and leave what `G` says if nobody
else changes the files it uses, in at most `c` steps. -/
def PcInv {α : Type} (h : Hier) (R W : Loc → Prop) (G : Outcome α × Mem) (c : Nat) (fs : Fs) (pc : Pc α) : Prop :=
  ∃ m : Mem, (match pc with
  | .prog p => p.Uses h R W ∧ p.eval h m = G ∧ p.cost h m ≤ c ∧
      ∀ l, R l ∨ W l → fs.content l = m l
  | .getOpen l k => Plain l ∧ (R l ∨ W l) ∧ (∀ r, (k r).Uses h R W) ∧ ∃ b, m l = some b ∧
      (k (.ok (some b))).eval h m = G ∧ 3 + b.length + (k (.ok (some b))).cost h m ≤ c ∧
      ∀ l, R l ∨ W l → fs.content l = m l
  | .getLock l k => Plain l ∧ (R l ∨ W l) ∧ (∀ r, (k r).Uses h R W) ∧ ∃ b, m l = some b ∧
      (k (.ok (some b))).eval h m = G ∧ 2 + b.length + (k (.ok (some b))).cost h m ≤ c ∧
      ∀ l, R l ∨ W l → fs.content l = m l
  | .getRead l acc k => Plain l ∧ (R l ∨ W l) ∧ (∀ r, (k r).Uses h R W) ∧ ∃ b, m l = some b ∧ acc <+: b ∧
      (k (.ok (some b))).eval h m = G ∧ 1 + (b.length - acc.length) + (k (.ok (some b))).cost h m ≤ c ∧
      ∀ l, R l ∨ W l → fs.content l = m l
  | .mkdirDown p n v k => Plain p ∧ W p ∧ (∀ r, (k r).Uses h R W) ∧ n < p.length ∧
      (k v.2).eval h (upd m p (some v.1)) = G ∧
      2 * p.length + n + v.1.length + 6 + (k v.2).cost h (upd m p (some v.1)) ≤ c ∧
      ∀ l, R l ∨ W l → fs.content l = m l
  | .mkdirDir p n _ v k => Plain p ∧ W p ∧ (∀ r, (k r).Uses h R W) ∧ n < p.length ∧
      fs.get (p.take n) = some .dir ∧ (k v.2).eval h (upd m p (some v.1)) = G ∧
      2 * (p.length - n) + v.1.length + 4 + (k v.2).cost h (upd m p (some v.1)) ≤ c ∧
      ∀ l, R l ∨ W l → fs.content l = m l
  | .mkdirUp p n v k => Plain p ∧ W p ∧ (∀ r, (k r).Uses h R W) ∧ n ≠ 0 ∧ n ≤ p.length ∧
      fs.get (p.take (n - 1)) = some .dir ∧ (k v.2).eval h (upd m p (some v.1)) = G ∧
      2 * (p.length - n) + v.1.length + 5 + (k v.2).cost h (upd m p (some v.1)) ≤ c ∧
      ∀ l, R l ∨ W l → fs.content l = m l
  | .setOpen p v k => Plain p ∧ W p ∧ (∀ r, (k r).Uses h R W) ∧ fs.get p.dropLast = some .dir ∧
      (k v.2).eval h (upd m p (some v.1)) = G ∧
      v.1.length + 4 + (k v.2).cost h (upd m p (some v.1)) ≤ c ∧
      ∀ l, R l ∨ W l → fs.content l = m l
  | .setLock p v k => Plain p ∧ W p ∧ (∀ r, (k r).Uses h R W) ∧ (∃ b, fs.content p = some b) ∧
      (k v.2).eval h (upd m p (some v.1)) = G ∧
      v.1.length + 3 + (k v.2).cost h (upd m p (some v.1)) ≤ c ∧
      ∀ l, R l ∨ W l → l ≠ p → fs.content l = m l
  | .setTrunc p v k => Plain p ∧ W p ∧ (∀ r, (k r).Uses h R W) ∧ (∃ b, fs.content p = some b) ∧
      (k v.2).eval h (upd m p (some v.1)) = G ∧
      v.1.length + 2 + (k v.2).cost h (upd m p (some v.1)) ≤ c ∧
      ∀ l, R l ∨ W l → l ≠ p → fs.content l = m l
  | .setWrite p v n k => Plain p ∧ W p ∧ (∀ r, (k r).Uses h R W) ∧ n ≤ v.1.length ∧
      fs.content p = some (v.1.take n) ∧
      (k v.2).eval h (upd m p (some v.1)) = G ∧
      v.1.length - n + 1 + (k v.2).cost h (upd m p (some v.1)) ≤ c ∧
      ∀ l, R l ∨ W l → l ≠ p → fs.content l = m l
  | .eraOpen p k => Plain p ∧ W p ∧ (∀ r, (k r).Uses h R W) ∧ (∃ b, fs.content p = some b) ∧
      (k (.ok true)).eval h (upd m p none) = G ∧ 5 + (k (.ok true)).cost h (upd m p none) ≤ c ∧
      ∀ l, R l ∨ W l → l ≠ p → fs.content l = m l
  | .eraLock p l k => l = p ∧ Plain p ∧ W p ∧ (∀ r, (k r).Uses h R W) ∧ (∃ b, fs.content p = some b) ∧
      (k (.ok true)).eval h (upd m p none) = G ∧ 4 + (k (.ok true)).cost h (upd m p none) ≤ c ∧
      ∀ l, R l ∨ W l → l ≠ p → fs.content l = m l
  | .eraUnlink p l k => l = p ∧ Plain p ∧ W p ∧ (∀ r, (k r).Uses h R W) ∧ (∃ b, fs.content p = some b) ∧
      (k (.ok true)).eval h (upd m p none) = G ∧ 3 + (k (.ok true)).cost h (upd m p none) ≤ c ∧
      ∀ l, R l ∨ W l → l ≠ p → fs.content l = m l
  | .eraFinal p k => Plain p ∧ W p ∧ (∀ r, (k r).Uses h R W) ∧ fs.content p = none ∧
      (k (.ok true)).eval h (upd m p none) = G ∧ 2 + (k (.ok true)).cost h (upd m p none) ≤ c ∧
      ∀ l, R l ∨ W l → l ≠ p → fs.content l = m l : Prop)

section
variable {α : Type} {h : Hier} {R W : Loc → Prop} {G : Outcome α × Mem} {c : Nat} {fs fs' : Fs} {pc pc' : Pc α}

/-- Another thread's step keeps the invariant. -/
theorem PcInv.frame {W' : Loc → Prop} (hi : PcInv h R W G c fs pc) (hc : Change W' fs fs')
    (hd : ∀ l, R l ∨ W l → ¬ W' l) : PcInv h R W G c fs' pc := by
  have key : ∀ l, R l ∨ W l → fs'.content l = fs.content l := fun l hl => hc.content (hd l hl)
  have key2 : ∀ l, W l → fs'.content l = fs.content l := fun l hl => key l (.inr hl)
  have ag : ∀ m : Mem, (∀ l, R l ∨ W l → fs.content l = m l) → ∀ l, R l ∨ W l → fs'.content l = m l :=
    fun m hm l hl => (key l hl).trans (hm l hl)
  have agb : ∀ (m : Mem) p, (∀ l, R l ∨ W l → l ≠ p → fs.content l = m l) →
      ∀ l, R l ∨ W l → l ≠ p → fs'.content l = m l :=
    fun m p hm l hl hne => (key l hl).trans (hm l hl hne)
  obtain ⟨m, hm⟩ := hi
  refine ⟨m, ?_⟩
  cases pc with
  | prog p => obtain ⟨a1, a2, a3, a4⟩ := hm; exact ⟨a1, a2, a3, ag m a4⟩
  | getOpen l k => obtain ⟨a1, a2, a3, b, a4, a5, a6, a7⟩ := hm; exact ⟨a1, a2, a3, b, a4, a5, a6, ag m a7⟩
  | getLock l k => obtain ⟨a1, a2, a3, b, a4, a5, a6, a7⟩ := hm; exact ⟨a1, a2, a3, b, a4, a5, a6, ag m a7⟩
  | getRead l acc k =>
    obtain ⟨a1, a2, a3, b, a4, a5, a6, a7, a8⟩ := hm; exact ⟨a1, a2, a3, b, a4, a5, a6, a7, ag m a8⟩
  | mkdirDown p n v k => obtain ⟨a1, a2, a3, a4, a5, a6, a7⟩ := hm; exact ⟨a1, a2, a3, a4, a5, a6, ag m a7⟩
  | mkdirDir p n e v k =>
    obtain ⟨a1, a2, a3, a4, a5, a6, a7, a8⟩ := hm; exact ⟨a1, a2, a3, a4, hc.dir a5, a6, a7, ag m a8⟩
  | mkdirUp p n v k =>
    obtain ⟨a1, a2, a3, a4, a5, a6, a7, a8, a9⟩ := hm; exact ⟨a1, a2, a3, a4, a5, hc.dir a6, a7, a8, ag m a9⟩
  | setOpen p v k =>
    obtain ⟨a1, a2, a3, a4, a5, a6, a7⟩ := hm; exact ⟨a1, a2, a3, hc.dir a4, a5, a6, ag m a7⟩
  | setLock p v k =>
    obtain ⟨a1, a2, a3, a4, a5, a6, a7⟩ := hm; exact ⟨a1, a2, a3, by rw [key2 _ a2]; exact a4, a5, a6, agb m p a7⟩
  | setTrunc p v k =>
    obtain ⟨a1, a2, a3, a4, a5, a6, a7⟩ := hm; exact ⟨a1, a2, a3, by rw [key2 _ a2]; exact a4, a5, a6, agb m p a7⟩
  | setWrite p v n k =>
    obtain ⟨a1, a2, a3, a4, a5, a6, a7, a8⟩ := hm
    exact ⟨a1, a2, a3, a4, by rw [key2 _ a2]; exact a5, a6, a7, agb m p a8⟩
  | eraOpen p k =>
    obtain ⟨a1, a2, a3, a4, a5, a6, a7⟩ := hm; exact ⟨a1, a2, a3, by rw [key2 _ a2]; exact a4, a5, a6, agb m p a7⟩
  | eraLock p l k =>
    obtain ⟨a0, a1, a2, a3, a4, a5, a6, a7⟩ := hm
    exact ⟨a0, a1, a2, a3, by rw [key2 _ a2]; exact a4, a5, a6, agb m p a7⟩
  | eraUnlink p l k =>
    obtain ⟨a0, a1, a2, a3, a4, a5, a6, a7⟩ := hm
    exact ⟨a0, a1, a2, a3, by rw [key2 _ a2]; exact a4, a5, a6, agb m p a7⟩
  | eraFinal p k =>
    obtain ⟨a1, a2, a3, a4, a5, a6, a7⟩ := hm; exact ⟨a1, a2, a3, by rw [key2 _ a2]; exact a4, a5, a6, agb m p a7⟩

theorem Change.put_dir (hwf : fs.WF) {p : Loc} {n : Nat} (hw : W p) (hn : n < p.length)
    (hg : fs.get (p.take n) = none) (hwf' : (fs.put (p.take n) .dir).WF) :
    Change W fs (fs.put (p.take n) .dir) := by
  refine ⟨hwf', fun l => ?_⟩
  rw [Fs.get_put]
  by_cases e : l = p.take n
  · refine .inr (.inl ⟨e ▸ hg, if_pos e, p, hw, e ▸ List.take_prefix _ _, fun e2 => ?_⟩)
    have := congrArg List.length (e.symm.trans e2)
    simp at this
    omega
  · exact .inl (if_neg e)

theorem Change.put_file (hwf : fs.WF) {p : Loc} {b : Bytes} (hw : W p) (hwr : Writable fs p)
    (hd : fs.get p.dropLast = some .dir) : Change W fs (fs.put p (.file b)) := by
  obtain ⟨q, s, rfl⟩ := writable_split hwf hwr
  rw [List.dropLast_concat] at hd
  refine ⟨hwf.put_file hd hwr.2, fun l => ?_⟩
  rw [Fs.get_put]
  by_cases e : l = q ++ [s]
  · exact .inr (.inr ⟨e ▸ hw, e ▸ hwr.2, by rw [if_pos e]; simp⟩)
  · exact .inl (if_neg e)

theorem parent_of_content (hwf : fs.WF) {p : Loc} (hwr : Writable fs p) {b : Bytes} (hc : fs.content p = some b) :
    fs.get p.dropLast = some .dir := by
  obtain ⟨q, s, rfl⟩ := writable_split hwf hwr
  rw [List.dropLast_concat]
  exact hwf.parent _ _ _ (Fs.content_eq_some.mp hc)

theorem content_put (p : Loc) (b : Bytes) (l : Loc) :
    (fs.put p (.file b)).content l = if l = p then some b else fs.content l := by
  unfold Fs.content
  rw [Fs.get_put]
  by_cases e : l = p
  · rw [if_pos e, if_pos e]
  · rw [if_neg e, if_neg e]

theorem content_put_dir {p : Loc} (hg : fs.get p = none) (l : Loc) :
    (fs.put p .dir).content l = fs.content l := by
  unfold Fs.content
  rw [Fs.get_put]
  by_cases e : l = p
  · rw [if_pos e, e, hg]
  · rw [if_neg e]

theorem content_del (p l : Loc) : (fs.del p).content l = if l = p then none else fs.content l := by
  unfold Fs.content
  rw [Fs.get_del]
  by_cases e : l = p
  · rw [if_pos e, if_pos e]
  · rw [if_neg e, if_neg e]

theorem pathExists_eq (hwf : fs.WF) {p : Loc} (hp : Plain p) : fs.pathExists p = (fs.get p).isSome := by
  rw [Fs.pathExists, Fs.node_plain hwf hp]

theorem agree_upd {m : Mem} {p : Loc} {v : Option Bytes} (h1 : fs.content p = v)
    (h2 : ∀ l, R l ∨ W l → l ≠ p → fs.content l = m l) : ∀ l, R l ∨ W l → fs.content l = upd m p v l := by
  intro l hl
  unfold upd
  by_cases e : l = p
  · rw [if_pos e, e, h1]
  · rw [if_neg e]; exact h2 l hl e

/-- A step of the thread itself keeps the invariant. -/
theorem PcInv.step {pcs : List (Pc α)} (hwf : fs.WF) (hfree : ∀ l, W l → Writable fs l)
    (hi : PcInv h R W G c fs pc) (hn : pc.next h pcs fs = some (pc', fs')) :
    (∃ c', c' < c ∧ PcInv h R W G c' fs' pc') ∧ Change W fs fs' := by
  obtain ⟨m, hm⟩ := hi
  cases pc with
  | prog p =>
    obtain ⟨a1, a2, a3, a4⟩ := hm
    cases p with
    | done r => simp [Pc.next] at hn
    | «exists» key k =>
      obtain ⟨b1, b2, b3⟩ := a1
      obtain ⟨t, ht, hs⟩ := getPath_loc b1
      simp only [Pc.next, ht, hs, Option.some.injEq, Prod.mk.injEq] at hn
      obtain ⟨rfl, rfl⟩ := hn
      simp only [Prog.eval, Prog.cost, ← a4 _ b2, ← Fs.isFile_eq hwf b1] at a2 a3
      exact ⟨⟨c - 1, by omega, m, b3 _, a2, by omega, a4⟩, .refl hwf⟩
    | get key k =>
      obtain ⟨b1, b2, b3⟩ := a1
      obtain ⟨t, ht, hs⟩ := getPath_loc b1
      simp only [Pc.next, ht, hs, Option.some.injEq, Prod.mk.injEq] at hn
      obtain ⟨rfl, rfl⟩ := hn
      refine ⟨?_, .refl hwf⟩
      simp only [Prog.eval, Prog.cost] at a2 a3
      rw [Fs.isFile_eq hwf b1, a4 _ b2]
      cases hb : m (h.loc key) with
      | none =>
        rw [hb] at a2 a3
        exact ⟨c - 1, by omega, m, b3 _, a2, by simp at a3; omega, a4⟩
      | some b =>
        rw [hb] at a2 a3
        exact ⟨c - 1, by omega, m, b1, b2, b3, b, hb, a2, by simp at a3; omega, a4⟩
    | set key v k =>
      obtain ⟨b1, b2, b3⟩ := a1
      obtain ⟨t, ht, hs⟩ := getPath_loc b1
      simp only [Pc.next, ht, hs, Option.some.injEq, Prod.mk.injEq] at hn
      obtain ⟨rfl, rfl⟩ := hn
      refine ⟨?_, .refl hwf⟩
      simp only [Prog.eval, Prog.cost] at a2 a3
      obtain ⟨q, x, e⟩ := writable_split hwf (hfree _ b2)
      have hpq : Plain q := fun hx => b1 (by rw [e]; exact List.mem_append_left _ hx)
      have hlen : (h.loc key).length ≠ 0 := by rw [e]; simp
      by_cases hc : (h.loc key).isEmpty ∨ fs.pathExists (h.loc key).dropLast
      · rw [if_pos hc]
        refine ⟨c - 1, by omega, m, b1, b2, b3, ?_, a2, by omega, a4⟩
        rcases hc with hc | hc
        · rw [e] at hc; simp at hc
        · rw [e, List.dropLast_concat] at hc ⊢
          rw [pathExists_eq hwf hpq] at hc
          cases hq : fs.get q with
          | none => rw [hq] at hc; simp at hc
          | some nd =>
            cases nd with
            | dir => rfl
            | file b =>
              exact absurd hq ((hfree _ b2).1 q (by rw [e]; exact List.prefix_append _ _) (by rw [e]; simp) b)
      · rw [if_neg hc]
        exact ⟨c - 1, by omega, m, b1, b2, b3, by omega, a2, by omega, a4⟩
    | erase key k =>
      obtain ⟨b1, b2, b3⟩ := a1
      obtain ⟨t, ht, hs⟩ := getPath_loc b1
      simp only [Pc.next, ht, hs, Option.some.injEq, Prod.mk.injEq] at hn
      obtain ⟨rfl, rfl⟩ := hn
      refine ⟨?_, .refl hwf⟩
      simp only [Prog.eval, Prog.cost] at a2 a3
      rw [pathExists_eq hwf b1]
      cases hg : fs.get (h.loc key) with
      | none =>
        exact ⟨c - 1, by omega, m, b1, b2, b3, by simp [Fs.content, hg], a2, by omega, fun l hl _ => a4 l hl⟩
      | some nd =>
        cases nd with
        | dir => exact absurd hg (hfree _ b2).2
        | file b =>
          exact ⟨c - 1, by omega, m, b1, b2, b3, ⟨b, by simp [Fs.content, hg]⟩, a2, by omega, fun l hl _ => a4 l hl⟩
  | getOpen l k =>
    obtain ⟨a1, a2, a3, b, a4, a5, a6, a7⟩ := hm
    have hg := Fs.content_eq_some.mp ((a7 l a2).trans a4)
    simp only [Pc.next, Fs.locate_of_get hwf a1 hg, hg, Option.isSome_some, if_true, Option.some.injEq,
      Prod.mk.injEq] at hn
    obtain ⟨rfl, rfl⟩ := hn
    exact ⟨⟨c - 1, by omega, m, a1, a2, a3, b, a4, a5, by omega, a7⟩, .refl hwf⟩
  | getLock l k =>
    obtain ⟨a1, a2, a3, b, a4, a5, a6, a7⟩ := hm
    simp only [Pc.next] at hn
    split at hn
    · simp at hn
    · simp only [Option.some.injEq, Prod.mk.injEq] at hn
      obtain ⟨rfl, rfl⟩ := hn
      exact ⟨⟨c - 1, by omega, m, a1, a2, a3, b, a4, List.nil_prefix, a5, by simp; omega, a7⟩, .refl hwf⟩
  | getRead l acc k =>
    obtain ⟨a1, a2, a3, b, a4, a5, a6, a7, a8⟩ := hm
    have hg := Fs.content_eq_some.mp ((a8 l a2).trans a4)
    have hcon : content fs l = b := by simp [content, hg]
    simp only [Pc.next, hg, hcon] at hn
    have hle := a5.length_le
    have htake := List.prefix_iff_eq_take.mp a5
    by_cases hlt : acc.length < b.length
    · rw [List.getElem?_eq_getElem hlt] at hn
      simp only [Option.some.injEq, Prod.mk.injEq] at hn
      obtain ⟨rfl, rfl⟩ := hn
      refine ⟨⟨c - 1, by omega, m, a1, a2, a3, b, a4, ?_, a6, by simp; omega, a8⟩, .refl hwf⟩
      rw [List.prefix_iff_eq_take]
      rw [List.length_append, List.length_singleton, ← List.take_append_getElem hlt, ← htake]
    · rw [List.getElem?_eq_none (by omega)] at hn
      simp only [Option.some.injEq, Prod.mk.injEq] at hn
      obtain ⟨rfl, rfl⟩ := hn
      have : acc = b := a5.eq_of_length (by omega)
      subst this
      exact ⟨⟨c - 1, by omega, m, a3 _, a6, by omega, a8⟩, .refl hwf⟩
  | mkdirDown p n v k =>
    obtain ⟨a1, a2, a3, a4, a5, a6, a7⟩ := hm
    simp only [Pc.next] at hn
    by_cases h0 : n = 0
    · have : fs.isDir [] = true := (Fs.isDir_iff hwf (by simp [Plain])).mpr hwf.root
      rw [if_pos h0, if_pos this] at hn
      simp only [Option.some.injEq, Prod.mk.injEq] at hn
      obtain ⟨rfl, rfl⟩ := hn
      exact ⟨⟨c - 1, by omega, m, a1, a2, a3, by omega, by omega, by simpa using hwf.root, a5, by omega, a7⟩, .refl hwf⟩
    · rw [if_neg h0] at hn
      rcases mkdir_take hwf a1 (hfree _ a2) h0 a4 with ⟨e1, e2, e3⟩ | ⟨e1, e2⟩ | ⟨e1, e2⟩
      · rw [e1] at hn
        simp only [Option.some.injEq, Prod.mk.injEq] at hn
        obtain ⟨rfl, rfl⟩ := hn
        refine ⟨⟨c - 1, by omega, m, a1, a2, a3, by omega, by omega, ?_, a5, by omega, fun l hl => ?_⟩,
          .put_dir hwf a2 a4 e2 e3⟩
        · rw [Nat.add_sub_cancel, Fs.get_put, if_pos rfl]
        · rw [content_put_dir e2]; exact a7 l hl
      · rw [e1] at hn
        simp only [reduceCtorEq, if_false, Option.some.injEq, Prod.mk.injEq] at hn
        obtain ⟨rfl, rfl⟩ := hn
        exact ⟨⟨c - 1, by omega, m, a1, a2, a3, a4, e2, a5, by omega, a7⟩, .refl hwf⟩
      · rw [e1] at hn
        simp only [if_true, Option.some.injEq, Prod.mk.injEq] at hn
        obtain ⟨rfl, rfl⟩ := hn
        exact ⟨⟨c - 1, by omega, m, a1, a2, a3, by omega, a5, by omega, a7⟩, .refl hwf⟩
  | mkdirDir p n e v k =>
    obtain ⟨a1, a2, a3, a4, a5, a6, a7, a8⟩ := hm
    have : fs.isDir (p.take n) = true := (Fs.isDir_iff hwf (fun hx => a1 (List.mem_of_mem_take hx))).mpr a5
    simp only [Pc.next, this, if_true, Option.some.injEq, Prod.mk.injEq] at hn
    obtain ⟨rfl, rfl⟩ := hn
    exact ⟨⟨c - 1, by omega, m, a1, a2, a3, by omega, by omega, by simpa using a5, a6, by omega, a8⟩, .refl hwf⟩
  | mkdirUp p n v k =>
    obtain ⟨a1, a2, a3, a4, a5, a6, a7, a8, a9⟩ := hm
    simp only [Pc.next] at hn
    by_cases hl : p.length ≤ n
    · rw [if_pos hl] at hn
      simp only [Option.some.injEq, Prod.mk.injEq] at hn
      obtain ⟨rfl, rfl⟩ := hn
      refine ⟨⟨c - 1, by omega, m, a1, a2, a3, ?_, a7, by omega, a9⟩, .refl hwf⟩
      rw [List.dropLast_eq_take, show p.length = n by omega]; exact a6
    · rw [if_neg hl] at hn
      rcases mkdir_take hwf a1 (hfree _ a2) a4 (by omega) with ⟨e1, e2, e3⟩ | ⟨e1, e2⟩ | ⟨e1, e2⟩
      · rw [e1] at hn
        simp only [Option.some.injEq, Prod.mk.injEq] at hn
        obtain ⟨rfl, rfl⟩ := hn
        refine ⟨⟨c - 1, by omega, m, a1, a2, a3, by omega, by omega, ?_, a7, by omega, fun l hl => ?_⟩,
          .put_dir hwf a2 (by omega) e2 e3⟩
        · rw [Nat.add_sub_cancel, Fs.get_put, if_pos rfl]
        · rw [content_put_dir e2]; exact a9 l hl
      · rw [e1] at hn
        simp only [Option.some.injEq, Prod.mk.injEq] at hn
        obtain ⟨rfl, rfl⟩ := hn
        exact ⟨⟨c - 1, by omega, m, a1, a2, a3, by omega, e2, a7, by omega, a9⟩, .refl hwf⟩
      · exact absurd a6 e2
  | setOpen p v k =>
    obtain ⟨a1, a2, a3, a4, a5, a6, a7⟩ := hm
    have hwr := hfree _ a2
    have hch : ∀ b, Change W fs (fs.put p (.file b)) := fun b => .put_file hwf a2 hwr a4
    obtain ⟨q, x, e⟩ := writable_split hwf hwr
    rw [e, List.dropLast_concat] at a4
    have ho := openCreate_plain hwf (by rw [← e]; exact a1) a4
    rw [← e] at ho
    simp only [Pc.next, ho] at hn
    cases hg : fs.get p with
    | none =>
      rw [hg] at hn
      simp only [Option.some.injEq, Prod.mk.injEq] at hn
      obtain ⟨rfl, rfl⟩ := hn
      refine ⟨⟨c - 1, by omega, m, a1, a2, a3, ⟨[], by rw [content_put, if_pos rfl]⟩, a5, by omega, fun l hl hne => ?_⟩,
        hch _⟩
      rw [content_put, if_neg hne]; exact a7 l hl
    | some nd =>
      rw [hg] at hn
      cases nd with
      | dir => exact absurd hg hwr.2
      | file b =>
        simp only [Option.some.injEq, Prod.mk.injEq] at hn
        obtain ⟨rfl, rfl⟩ := hn
        exact ⟨⟨c - 1, by omega, m, a1, a2, a3, ⟨b, Fs.content_eq_some.mpr hg⟩, a5, by omega, fun l hl _ => a7 l hl⟩,
          .refl hwf⟩
  | setLock p v k =>
    obtain ⟨a1, a2, a3, a4, a5, a6, a7⟩ := hm
    simp only [Pc.next] at hn
    split at hn
    · simp at hn
    · simp only [Option.some.injEq, Prod.mk.injEq] at hn
      obtain ⟨rfl, rfl⟩ := hn
      exact ⟨⟨c - 1, by omega, m, a1, a2, a3, a4, a5, by omega, a7⟩, .refl hwf⟩
  | setTrunc p v k =>
    obtain ⟨a1, a2, a3, ⟨b, a4⟩, a5, a6, a7⟩ := hm
    simp only [Pc.next, Option.some.injEq, Prod.mk.injEq] at hn
    obtain ⟨rfl, rfl⟩ := hn
    refine ⟨⟨c - 1, by omega, m, a1, a2, a3, by omega, by rw [content_put, if_pos rfl]; simp, a5, by omega,
      fun l hl hne => ?_⟩, .put_file hwf a2 (hfree _ a2) (parent_of_content hwf (hfree _ a2) a4)⟩
    rw [content_put, if_neg hne]; exact a7 l hl hne
  | setWrite p v n k =>
    obtain ⟨a1, a2, a3, a4, a5, a6, a7, a8⟩ := hm
    have hcon : content fs p = v.1.take n := by simp [content, Fs.content_eq_some.mp a5]
    simp only [Pc.next] at hn
    by_cases hlt : n < v.1.length
    · rw [List.getElem?_eq_getElem hlt] at hn
      simp only [Option.some.injEq, Prod.mk.injEq] at hn
      obtain ⟨rfl, rfl⟩ := hn
      have e : (content fs p).take n ++ v.1[n] :: (content fs p).drop (n + 1) = v.1.take (n + 1) := by
        rw [hcon, List.take_take, Nat.min_self, List.drop_eq_nil_of_le (by simp; omega), List.take_append_getElem hlt]
      rw [e]
      refine ⟨⟨c - 1, by omega, m, a1, a2, a3, by omega, by rw [content_put, if_pos rfl], a6, by omega,
        fun l hl hne => ?_⟩, .put_file hwf a2 (hfree _ a2) (parent_of_content hwf (hfree _ a2) a5)⟩
      rw [content_put, if_neg hne]; exact a8 l hl hne
    · rw [List.getElem?_eq_none (by omega)] at hn
      simp only [Option.some.injEq, Prod.mk.injEq] at hn
      obtain ⟨rfl, rfl⟩ := hn
      rw [List.take_of_length_le (by omega)] at a5
      exact ⟨⟨c - 1, by omega, _, a3 _, a6, by omega, agree_upd a5 a8⟩, .refl hwf⟩
  | eraOpen p k =>
    obtain ⟨a1, a2, a3, ⟨b, a4⟩, a5, a6, a7⟩ := hm
    have hg := Fs.content_eq_some.mp a4
    simp only [Pc.next, Fs.locate_of_get hwf a1 hg, hg, Option.isSome_some, if_true, Option.some.injEq,
      Prod.mk.injEq] at hn
    obtain ⟨rfl, rfl⟩ := hn
    exact ⟨⟨c - 1, by omega, m, rfl, a1, a2, a3, ⟨b, a4⟩, a5, by omega, a7⟩, .refl hwf⟩
  | eraLock p l k =>
    obtain ⟨a0, a1, a2, a3, a4, a5, a6, a7⟩ := hm
    simp only [Pc.next] at hn
    split at hn
    · simp at hn
    · simp only [Option.some.injEq, Prod.mk.injEq] at hn
      obtain ⟨rfl, rfl⟩ := hn
      exact ⟨⟨c - 1, by omega, m, a0, a1, a2, a3, a4, a5, by omega, a7⟩, .refl hwf⟩
  | eraUnlink p l k =>
    obtain ⟨a0, a1, a2, a3, ⟨b, a4⟩, a5, a6, a7⟩ := hm
    have hg := Fs.content_eq_some.mp a4
    simp only [Pc.next, Fs.locate_of_get hwf a1 hg, hg, Option.some.injEq, Prod.mk.injEq] at hn
    obtain ⟨rfl, rfl⟩ := hn
    refine ⟨⟨c - 1, by omega, m, a1, a2, a3, by rw [content_del, if_pos rfl], a5, by omega, fun l hl hne => ?_⟩,
      hwf.del_file hg, fun l => ?_⟩
    · rw [content_del, if_neg hne]; exact a7 l hl hne
    · rw [Fs.get_del]
      by_cases e : l = p
      · exact .inr (.inr ⟨e ▸ a2, by rw [e, hg]; simp, by rw [if_pos e]; simp⟩)
      · exact .inl (if_neg e)
  | eraFinal p k =>
    obtain ⟨a1, a2, a3, a4, a5, a6, a7⟩ := hm
    have hg : fs.get p = none := by
      cases hg : fs.get p with
      | none => rfl
      | some nd =>
        cases nd with
        | dir => exact absurd hg (hfree _ a2).2
        | file b => simp [Fs.content, hg] at a4
    simp only [Pc.next, pathExists_eq hwf a1, hg, Option.isSome_none, Bool.not_false, Option.some.injEq,
      Prod.mk.injEq] at hn
    obtain ⟨rfl, rfl⟩ := hn
    exact ⟨⟨c - 1, by omega, _, a3 _, a5, by omega, agree_upd a4 a7⟩, .refl hwf⟩

/-- The program run alone is its effect on the contents of the files. -/
theorem Prog.run_eval (hown : ∀ a b, W a → W b → a <+: b → a = b) (p : Prog α) (hu : p.Uses h R W)
    (hwf : fs.WF) (hfree : ∀ l, W l → Writable fs l) :
    (p.run h fs).1 = (p.eval h fs.content).1 ∧ (p.run h fs).2.content = (p.eval h fs.content).2 ∧
      Change W fs (p.run h fs).2 := by
  induction p generalizing fs with
  | done r => exact ⟨rfl, rfl, .refl hwf⟩
  | «exists» key k ih =>
    obtain ⟨b1, _, b3⟩ := hu
    simp only [Prog.run, Prog.eval, storeExists_eq hwf b1]
    exact ih _ (b3 _) hwf hfree
  | get key k ih =>
    obtain ⟨b1, _, b3⟩ := hu
    simp only [Prog.run, Prog.eval, storeGet_eq hwf b1]
    exact ih _ (b3 _) hwf hfree
  | set key v k ih =>
    obtain ⟨b1, b2, b3⟩ := hu
    obtain ⟨fs', e1, e2, e3⟩ := (storeSet_spec (h := h) (key := key) v hwf b1).1 (hfree _ b2)
    have hc : fs'.content = upd fs.content (h.loc key) (some v.1) := by
      funext l
      unfold Fs.content upd
      rw [e3, setSpec]
      by_cases e : l = h.loc key
      · rw [if_pos e, if_pos e]
      · rw [if_neg e, if_neg e]
        by_cases e' : l <+: h.loc key ∧ fs.get l = none
        · rw [if_pos e']; simp [e'.2]
        · rw [if_neg e']
    have hch : Change W fs fs' := by
      refine ⟨e2, fun l => ?_⟩
      rw [e3, setSpec]
      by_cases e : l = h.loc key
      · exact .inr (.inr ⟨e ▸ b2, e ▸ (hfree _ b2).2, by rw [if_pos e]; simp⟩)
      · rw [if_neg e]
        by_cases e' : l <+: h.loc key ∧ fs.get l = none
        · exact .inr (.inl ⟨e'.2, by rw [if_pos e'], _, b2, e'.1, e⟩)
        · exact .inl (if_neg e')
    simp only [Prog.run, Prog.eval, e1, ← hc]
    obtain ⟨k1, k2, k3⟩ := ih v.2 (b3 _) e2 fun l hl => hch.writable (hfree l hl) (fun a ha => hown a l ha hl)
      (fun a ha hp => (hown l a hl ha hp).symm)
    exact ⟨k1, k2, hch.trans hown k3⟩
  | erase key k ih =>
    obtain ⟨b1, b2, b3⟩ := hu
    have hd := (hfree _ b2).2
    have he := storeErase_spec hwf b1
    cases hg : fs.get (h.loc key) with
    | none =>
      rw [hg] at he
      have hc : fs.content = upd fs.content (h.loc key) none := by
        funext l
        unfold upd
        by_cases e : l = h.loc key
        · rw [if_pos e, e]; simp [Fs.content, hg]
        · rw [if_neg e]
      simp only [Prog.run, Prog.eval, he, ← hc]
      exact ih _ (b3 _) hwf hfree
    | some nd =>
      cases nd with
      | dir => exact absurd hg hd
      | file b =>
        rw [hg] at he
        have hc : (fs.del (h.loc key)).content = upd fs.content (h.loc key) none := by
          funext l
          rw [content_del, upd]
        have hch : Change W fs (fs.del (h.loc key)) := by
          refine ⟨hwf.del_file hg, fun l => ?_⟩
          rw [Fs.get_del]
          by_cases e : l = h.loc key
          · exact .inr (.inr ⟨e ▸ b2, by rw [e, hg]; simp, by rw [if_pos e]; simp⟩)
          · exact .inl (if_neg e)
        simp only [Prog.run, Prog.eval, he, ← hc]
        obtain ⟨k1, k2, k3⟩ := ih (.ok true) (b3 _) hch.wf fun l hl => hch.writable (hfree l hl)
          (fun a ha => hown a l ha hl) (fun a ha hp => (hown l a hl ha hp).symm)
        exact ⟨k1, k2, hch.trans hown k3⟩

/-- What a program does to the files it uses depends on these files only. -/
theorem Prog.eval_congr (p : Prog α) (hu : p.Uses h R W) {m m' : Mem}
    (he : ∀ l, R l ∨ W l → m l = m' l) :
    (p.eval h m).1 = (p.eval h m').1 ∧ ∀ l, R l ∨ W l → (p.eval h m).2 l = (p.eval h m').2 l := by
  have hupd : ∀ (x : Loc) v {m m' : Mem}, (∀ l, R l ∨ W l → m l = m' l) →
      ∀ l, R l ∨ W l → upd m x v l = upd m' x v l := by
    intro x v m m' he l hl
    unfold upd
    split
    · rfl
    · exact he l hl
  induction p generalizing m m' with
  | done r => exact ⟨rfl, he⟩
  | «exists» key k ih =>
    obtain ⟨_, b2, b3⟩ := hu
    simp only [Prog.eval, he _ b2]
    exact ih _ (b3 _) he
  | get key k ih =>
    obtain ⟨_, b2, b3⟩ := hu
    simp only [Prog.eval, he _ b2]
    exact ih _ (b3 _) he
  | set key v k ih => exact ih _ (hu.2.2 _) (hupd _ _ he)
  | erase key k ih => exact ih _ (hu.2.2 _) (hupd _ _ he)

/-- A program leaves other files alone. -/
theorem Prog.eval_frame (p : Prog α) (hu : p.Uses h R W) (m : Mem) {l : Loc} (hl : ¬ W l) :
    (p.eval h m).2 l = m l := by
  induction p generalizing m with
  | done r => rfl
  | «exists» key k ih => exact ih _ (hu.2.2 _) m
  | get key k ih => exact ih _ (hu.2.2 _) m
  | set key v k ih =>
    simp only [Prog.eval]
    rw [ih _ (hu.2.2 _), upd, if_neg]
    rintro rfl; exact hl hu.2.1
  | erase key k ih =>
    simp only [Prog.eval]
    rw [ih _ (hu.2.2 _), upd, if_neg]
    rintro rfl; exact hl hu.2.1

/-- A thread only locks files it uses, exclusively only files it changes. -/
theorem PcInv.holds (hi : PcInv h R W G c fs pc) {l : Loc} (hl : pc.holds l = true) :
    (R l ∨ W l) ∧ (pc.exclusive l = true → W l) := by
  obtain ⟨m, hm⟩ := hi
  cases pc with
  | getRead l' acc k =>
    simp only [Pc.holds, decide_eq_true_eq] at hl
    subst hl
    exact ⟨hm.2.1, by simp [Pc.exclusive]⟩
  | setTrunc l' v k =>
    simp only [Pc.holds, Pc.exclusive, decide_eq_true_eq] at hl
    subst hl
    exact ⟨.inr hm.2.1, fun _ => hm.2.1⟩
  | setWrite l' v n k =>
    simp only [Pc.holds, Pc.exclusive, decide_eq_true_eq] at hl
    subst hl
    exact ⟨.inr hm.2.1, fun _ => hm.2.1⟩
  | eraUnlink p l' k =>
    simp only [Pc.holds, Pc.exclusive, decide_eq_true_eq] at hl
    subst hl
    obtain ⟨a0, _, a2, _⟩ := hm
    exact ⟨.inr (a0 ▸ a2), fun _ => a0 ▸ a2⟩
  | _ => simp [Pc.holds, Pc.exclusive] at hl

theorem Pc.holds_of_exclusive {l : Loc} (hl : pc.exclusive l = true) : pc.holds l = true := by
  cases pc <;> simp_all [Pc.holds, Pc.exclusive]

/-- A thread that does not wait for a lock can go on until it is done. -/
theorem PcInv.next (hi : PcInv h R W G c fs pc) {pcs : List (Pc α)}
    (hl : ∀ l, (R l ∨ W l) → pcs.any (Pc.exclusive l) = false)
    (hw : ∀ l, W l → pcs.any (Pc.holds l) = false) (hnd : ∀ r, pc ≠ .prog (.done r)) :
    ∃ q, pc.next h pcs fs = some q := by
  obtain ⟨m, hm⟩ := hi
  cases pc with
  | prog p =>
    cases p with
    | done r => exact absurd rfl (hnd r)
    | _ => simp only [Pc.next]; split <;> exact ⟨_, rfl⟩
  | getLock l k => exact ⟨_, by simp only [Pc.next, hl l hm.2.1]; rfl⟩
  | getOpen l k => simp only [Pc.next]; split <;> exact ⟨_, rfl⟩
  | getRead l acc k =>
    simp only [Pc.next]
    split
    · exact ⟨_, rfl⟩
    · split <;> exact ⟨_, rfl⟩
  | mkdirDown p n v k =>
    simp only [Pc.next]
    split
    · exact ⟨_, rfl⟩
    · split <;> exact ⟨_, rfl⟩
  | mkdirUp p n v k =>
    simp only [Pc.next]
    split
    · exact ⟨_, rfl⟩
    · split <;> exact ⟨_, rfl⟩
  | mkdirDir p n e v k => exact ⟨_, rfl⟩
  | setOpen p v k => simp only [Pc.next]; split <;> exact ⟨_, rfl⟩
  | setLock p v k => exact ⟨_, by simp only [Pc.next, hw p hm.2.1]; rfl⟩
  | setTrunc p v k => exact ⟨_, rfl⟩
  | setWrite p v n k => simp only [Pc.next]; split <;> exact ⟨_, rfl⟩
  | eraOpen p k => simp only [Pc.next]; split <;> exact ⟨_, rfl⟩
  | eraLock p l k => exact ⟨_, by simp only [Pc.next, hw l (hm.1 ▸ hm.2.2.1)]; rfl⟩
  | eraUnlink p l k =>
    simp only [Pc.next]
    split
    · split <;> exact ⟨_, rfl⟩
    · exact ⟨_, rfl⟩
    · exact ⟨_, rfl⟩
  | eraFinal p k => exact ⟨_, rfl⟩


end

end Zarr.Threads
