import Verif.Props.AnyStore
/-!
# The store calls that each call of the API makes: C109
-/

namespace Zarr

open Spec

/-! ## Specification -/

/-- A call of the store and the place of its key. -/
inductive Spec.StoreOp where
  | has (l : Loc)
  | get (l : Loc)
  | set (l : Loc)
  | erase (l : Loc)
  | erasePrefix (l : Loc)
  | listDir (l : Loc)
deriving DecidableEq

/-- A store that does what `S` does and keeps a log of the calls; the key is logged as its place below the base. -/
def Spec.logged {σ : Type} (h : Hier) (S : Any.Store σ) : Any.Store (σ × List StoreOp) where
  has k s := ((S.has k s.1).1, (S.has k s.1).2, s.2 ++ [.has (segs h.base ++ segs k)])
  get k s := ((S.get k s.1).1, (S.get k s.1).2, s.2 ++ [.get (segs h.base ++ segs k)])
  set k v s := ((S.set k v s.1).1, (S.set k v s.1).2, s.2 ++ [.set (segs h.base ++ segs k)])
  erase k s := ((S.erase k s.1).1, (S.erase k s.1).2, s.2 ++ [.erase (segs h.base ++ segs k)])
  erasePrefix k s := ((S.erasePrefix k s.1).1, (S.erasePrefix k s.1).2, s.2 ++ [.erasePrefix (segs h.base ++ segs k)])
  listDir k s := ((S.listDir k s.1).1, (S.listDir k s.1).2, s.2 ++ [.listDir (segs h.base ++ segs k)])

/-- Every point of the chunk is in the box. -/
def Spec.ChunkInBox (m : ArrayMetadata) (b : BBox) (pos : List Nat) : Prop :=
  ∀ p, Covers m.chunkShape pos p → InBox b.offset b.shape p

/-- The store calls of a box write for a list of chunks: a chunk that is inside the box is only written,
another chunk is read and written. -/
inductive Spec.WriteScript (h : Hier) (p : Str) (m : ArrayMetadata) (b : BBox) : List (List Nat) → List StoreOp → Prop
  | nil : WriteScript h p m b [] []
  | whole {pos ps l} : ChunkInBox m b pos → WriteScript h p m b ps l →
    WriteScript h p m b (pos :: ps) (.set (chunkLoc h p m.separator pos) :: l)
  | part {pos ps l} : ¬ ChunkInBox m b pos → WriteScript h p m b ps l →
    WriteScript h p m b (pos :: ps)
      (.get (chunkLoc h p m.separator pos) :: .set (chunkLoc h p m.separator pos) :: l)

/-- The chunks that share a point with the box and the array, in increasing order. -/
def Spec.ChunksInOrder (m : ArrayMetadata) (b : BBox) (ps : List (List Nat)) : Prop :=
  ps.Pairwise (· < ·) ∧ ∀ pos, pos ∈ ps ↔ OverlapsBoth m b pos

/-- The store calls of a call that is not cut short. -/
def Spec.WCall.Script (h : Hier) (md : List Str → ArrayMetadata) : WCall → List StoreOp → Prop
  | .call (.call (.createGroup p)), l =>
    l = [.has (docLoc h str!"array" p), .has (docLoc h str!"group" p)] ∨
    l = [.has (docLoc h str!"array" p), .has (docLoc h str!"group" p), .set (docLoc h str!"group" p)]
  | .call (.call (.createArray p _)), l =>
    l = [.has (docLoc h str!"group" p), .has (docLoc h str!"array" p), .set (docLoc h str!"array" p)]
  | .call (.call (.setAttributes p _)), l =>
    l = [.has (docLoc h str!"array" p), .get (docLoc h str!"array" p)] ∨
    l = [.has (docLoc h str!"array" p), .get (docLoc h str!"array" p), .set (docLoc h str!"array" p)] ∨
    l = [.has (docLoc h str!"array" p), .has (docLoc h str!"group" p), .get (docLoc h str!"group" p)] ∨
    l = [.has (docLoc h str!"array" p), .has (docLoc h str!"group" p), .get (docLoc h str!"group" p),
      .set (docLoc h str!"group" p)]
  | .call (.call (.remove p)), l =>
    l = [.erase (docLoc h str!"group" p), .erase (docLoc h str!"array" p), .erasePrefix (dataLoc h p)]
  | .call (.call (.writeChunk p _ c)), l => l = [.set (chunkLoc h p (md (segs p)).separator c.gridPosition)]
  | .call (.call (.deleteChunk p pos)), l => l = [.erase (chunkLoc h p (md (segs p)).separator pos)]
  | .call (.call (.nodeExists p)), l =>
    l = [.has (docLoc h str!"array" p)] ∨
    l = [.has (docLoc h str!"array" p), .has (docLoc h str!"group" p)] ∨
    l = [.has (docLoc h str!"array" p), .has (docLoc h str!"group" p), .has (implicitLoc h p)]
  | .call (.call (.arrayExists p)), l =>
    l = [.has (docLoc h str!"array" p), .get (docLoc h str!"array" p)] ∨
    l = [.has (docLoc h str!"array" p), .has (docLoc h str!"group" p), .get (docLoc h str!"array" p)] ∨
    l = [.has (docLoc h str!"array" p), .has (docLoc h str!"group" p), .has (implicitLoc h p)] ∨
    l = [.has (docLoc h str!"array" p), .has (docLoc h str!"group" p), .has (implicitLoc h p),
      .get (docLoc h str!"array" p)]
  | .call (.call (.getArrayMetadata p)), l => l = [.get (docLoc h str!"array" p)]
  | .call (.call (.listAttributes p)), l =>
    l = [.has (docLoc h str!"array" p), .get (docLoc h str!"array" p)] ∨
    l = [.has (docLoc h str!"array" p), .has (docLoc h str!"group" p), .get (docLoc h str!"group" p)]
  | .call (.call (.readChunk p _ pos)), l => l = [.get (chunkLoc h p (md (segs p)).separator pos)]
  | .call (.readBox p _ b), l =>
    ∃ ps, ChunksInOrder (md (segs p)) b ps ∧ l = ps.map fun pos => .get (chunkLoc h p (md (segs p)).separator pos)
  | .call (.writeBox p _ offset array), l =>
    ∃ ps, ChunksInOrder (md (segs p)) ⟨offset, array.shape⟩ ps ∧
      WriteScript h p (md (segs p)) ⟨offset, array.shape⟩ ps l
  | .listNodes p, l => l = [.listDir (implicitLoc h p)]

/-- The call succeeded. -/
def Spec.WResult.Succeeded : WResult → Prop
  | .plain (.plain (.unit r)) => ∃ a, r = .ok a
  | .plain (.plain (.bool r)) => ∃ a, r = .ok a
  | .plain (.plain (.metadata r)) => ∃ a, r = .ok a
  | .plain (.plain (.attrs r)) => ∃ a, r = .ok a
  | .plain (.plain (.data r)) => ∃ a, r = .ok a
  | .plain (.box r) => ∃ a, r = .ok a
  | .names r => ∃ a, r = .ok a

namespace Any

/-! ## Programs and logs -/

section
variable {σ α β : Type} {h : Hier}

/-- On every store, the program ends with an outcome and a log that `P` accepts, if the log was `l` before. -/
def Logs (h : Hier) (P : Outcome α → List StoreOp → Prop) : Wide.Prog α → List StoreOp → Prop
  | .done r, l => P r l
  | .exists key k, l => ∀ r, Logs h P (k r) (l ++ [.has (h.loc key)])
  | .get key k, l => ∀ r, Logs h P (k r) (l ++ [.get (h.loc key)])
  | .set key _ k, l => ∀ r, Logs h P (k r) (l ++ [.set (h.loc key)])
  | .erase key k, l => ∀ r, Logs h P (k r) (l ++ [.erase (h.loc key)])
  | .erasePrefix key k, l => ∀ r, Logs h P (k r) (l ++ [.erasePrefix (h.loc key)])
  | .listDir key k, l => ∀ r, Logs h P (k r) (l ++ [.listDir (h.loc key)])

theorem Logs.run {S : Store σ} {P : Outcome α → List StoreOp → Prop} {p : Wide.Prog α} {l : List StoreOp} {s : σ}
    (hp : Logs h P p l) : P ((logged h S).run p (s, l)).1 ((logged h S).run p (s, l)).2.2 := by
  induction p generalizing l s with
  | done r => exact hp
  | _ => rename_i ih; exact ih _ (hp _)

/-- The log does not change what the calls do. -/
theorem run_logged {S : Store σ} (p : Wide.Prog α) (s : σ) (l : List StoreOp) :
    ((logged h S).run p (s, l)).1 = (S.run p s).1 ∧ ((logged h S).run p (s, l)).2.1 = (S.run p s).2 := by
  induction p generalizing l s with
  | done r => exact ⟨rfl, rfl⟩
  | _ => rename_i ih; exact ih _ _ _

theorem Logs.mono {P Q : Outcome α → List StoreOp → Prop} {p : Wide.Prog α} {l : List StoreOp} (hp : Logs h P p l)
    (hi : ∀ r l, P r l → Q r l) : Logs h Q p l := by
  induction p generalizing l with
  | done r => exact hi _ _ hp
  | _ => rename_i ih; exact fun r => ih r (hp r)

theorem Logs.bind {P : Outcome β → List StoreOp → Prop} {Q : Outcome α → List StoreOp → Prop} {p : Wide.Prog α}
    {f : α → Wide.Prog β} {l : List StoreOp} (hp : Logs h Q p l) (hok : ∀ a l, Q (.ok a) l → Logs h P (f a) l)
    (herr : ∀ e l, Q (.err e) l → P (.err e) l) (hpan : ∀ l, Q .panic l → P .panic l) : Logs h P (p.bind f) l := by
  induction p generalizing l with
  | done r =>
    cases r with
    | ok a => exact hok a l hp
    | err e => exact herr e l hp
    | panic => exact hpan l hp
  | _ => rename_i ih; exact fun r => ih r (hp r)

theorem Logs.record {P : Outcome β → List StoreOp → Prop} {f : Outcome α → β} {p : Wide.Prog α} {l : List StoreOp}
    (hp : Logs h (fun r l => P (.ok (f r)) l) p l) : Logs h P (p.record f) l := by
  induction p generalizing l with
  | done r => exact hp
  | _ => rename_i ih; exact fun r => ih r (hp r)

/-- The log is the beginning of a script, and a whole one if the program succeeded. -/
def Follows (script : List StoreOp → Prop) (r : Outcome α) (l : List StoreOp) : Prop :=
  ∃ x, script x ∧ l <+: x ∧ ((∃ a, r = .ok a) → l = x)

/-- The log is the beginning of a script. -/
def Started (script : List StoreOp → Prop) (l : List StoreOp) : Prop := ∃ x, script x ∧ l <+: x

variable {script : List StoreOp → Prop} {l : List StoreOp}

theorem Started.bad (hs : Started script l) {r : Outcome α} (hr : ∀ a, r ≠ .ok a) : Follows script r l := by
  obtain ⟨x, h1, h2⟩ := hs
  exact ⟨x, h1, h2, fun ⟨a, ha⟩ => absurd ha (hr a)⟩

theorem Started.err (hs : Started script l) {e : ErrKind} : Follows script (.err e : Outcome α) l := hs.bad (by simp)
theorem Started.panic (hs : Started script l) : Follows script (.panic : Outcome α) l := hs.bad (by simp)

theorem Follows.started {r : Outcome α} (hf : Follows script r l) : Started script l := by
  obtain ⟨x, h1, h2, _⟩ := hf
  exact ⟨x, h1, h2⟩

theorem follows_of {r : Outcome α} (hs : script l) : Follows script r l := ⟨l, hs, List.prefix_rfl, fun _ => rfl⟩

variable {f : α → Threads.Prog β}

theorem logs_lift {r : Outcome α} (hs : Started script l)
    (hok : ∀ a, r = .ok a → Logs h (Follows script) (Wide.Prog.of (f a)) l) :
    Logs h (Follows script) (Wide.Prog.of (Threads.pLift r >>= f)) l := by
  cases r with
  | ok a => exact hok a rfl
  | err e => exact hs.err
  | panic => exact hs.panic

theorem logs_exists {key : Str} {f : Bool → Threads.Prog β} (hs : Started script (l ++ [.has (h.loc key)]))
    (hok : ∀ a, Logs h (Follows script) (Wide.Prog.of (f a)) (l ++ [.has (h.loc key)])) :
    Logs h (Follows script) (Wide.Prog.of (Threads.pExists key >>= f)) l := by
  intro r
  cases r with
  | ok a => exact hok a
  | err e => exact hs.err
  | panic => exact hs.panic

theorem logs_get {key : Str} {f : Option Bytes → Threads.Prog β} (hs : Started script (l ++ [.get (h.loc key)]))
    (hok : ∀ a, Logs h (Follows script) (Wide.Prog.of (f a)) (l ++ [.get (h.loc key)])) :
    Logs h (Follows script) (Wide.Prog.of (Threads.pGet key >>= f)) l := by
  intro r
  cases r with
  | ok a => exact hok a
  | err e => exact hs.err
  | panic => exact hs.panic

theorem logs_set {key : Str} {v : Bytes × Outcome Unit} {f : Unit → Threads.Prog β}
    (hs : Started script (l ++ [.set (h.loc key)]))
    (hok : Logs h (Follows script) (Wide.Prog.of (f ())) (l ++ [.set (h.loc key)])) :
    Logs h (Follows script) (Wide.Prog.of (Threads.pSet key v >>= f)) l := by
  intro r
  cases r with
  | ok a => exact hok
  | err e => exact hs.err
  | panic => exact hs.panic

theorem logs_map {p : Threads.Prog α} {f : α → β} (hp : Logs h (Follows script) (Wide.Prog.of p) l) :
    Logs h (Follows script) (Wide.Prog.of (p >>= fun a => pure (f a))) l := by
  rw [of_bind]
  refine hp.bind (fun a l ⟨x, h1, h2, h3⟩ => ⟨x, h1, h2, fun _ => h3 ⟨a, rfl⟩⟩) (fun e l hf => ?_) (fun l hf => ?_)
  · exact hf.started.err
  · exact hf.started.panic

theorem logs_of_record {p : Threads.Prog α} {g : Outcome α → β} {P : Outcome β → List StoreOp → Prop}
    (hp : Logs h (fun r l => P (.ok (g r)) l) (Wide.Prog.of p) l) : Logs h P (Wide.Prog.of (p.record g)) l := by
  induction p generalizing l with
  | done r => exact hp
  | _ => rename_i ih; exact fun r => ih r (hp r)

end

/-! ## The calls on documents -/

section
variable {env : Env} {h : Hier} {p : Str}

theorem logs_createGroup : Logs h (Follows fun l =>
    l = [.has (h.loc (arrayMetadataKey h.entry p)), .has (h.loc (groupMetadataKey h.entry p))] ∨
    l = [.has (h.loc (arrayMetadataKey h.entry p)), .has (h.loc (groupMetadataKey h.entry p)),
      .set (h.loc (groupMetadataKey h.entry p))]) (Wide.Prog.of (Threads.createGroup env h p)) [] := by
  refine logs_exists ⟨_, .inl rfl, ⟨_, rfl⟩⟩ fun a => ?_
  cases a
  · refine logs_exists ⟨_, .inl rfl, ⟨_, rfl⟩⟩ fun a => ?_
    cases a
    · exact fun r => follows_of (.inr rfl)
    · exact follows_of (.inl rfl)
  · exact Started.err ⟨_, .inl rfl, ⟨_, rfl⟩⟩

theorem logs_createArray {m : ArrayMetadata} : Logs h (Follows fun l =>
    l = [.has (h.loc (groupMetadataKey h.entry p)), .has (h.loc (arrayMetadataKey h.entry p)),
      .set (h.loc (arrayMetadataKey h.entry p))]) (Wide.Prog.of (Threads.createArray env h p m)) [] := by
  refine logs_exists ⟨_, rfl, ⟨_, rfl⟩⟩ fun a => ?_
  cases a
  · refine logs_exists ⟨_, rfl, ⟨_, rfl⟩⟩ fun a => ?_
    cases a
    · exact fun r => follows_of rfl
    · refine Started.err ?_; exact ⟨_, rfl, ⟨_, rfl⟩⟩
  · refine Started.err ?_; exact ⟨_, rfl, ⟨_, rfl⟩⟩

theorem logs_nodeKey {β : Type} {f : Str → Threads.Prog β} {script : List StoreOp → Prop}
    (h1 : Started script [.has (h.loc (arrayMetadataKey h.entry p)), .has (h.loc (groupMetadataKey h.entry p))])
    (ha : Logs h (Follows script) (Wide.Prog.of (f (arrayMetadataKey h.entry p)))
      [.has (h.loc (arrayMetadataKey h.entry p))])
    (hg : Logs h (Follows script) (Wide.Prog.of (f (groupMetadataKey h.entry p)))
      [.has (h.loc (arrayMetadataKey h.entry p)), .has (h.loc (groupMetadataKey h.entry p))]) :
    Logs h (Follows script) (Wide.Prog.of (Threads.nodeMetadataKey h p >>= f)) [] := by
  have h0 : Started script [.has (h.loc (arrayMetadataKey h.entry p))] := by
    obtain ⟨x, hx, t, ht⟩ := h1
    exact ⟨x, hx, ⟨_, ht⟩⟩
  intro r
  cases r with
  | err e => exact h0.err
  | panic => exact h0.panic
  | ok a =>
    cases a
    · intro r
      cases r with
      | err e => exact h1.err
      | panic => exact h1.panic
      | ok a =>
        cases a
        · exact h1.err
        · exact hg
    · exact ha

theorem logs_listAttributes : Logs h (Follows fun l =>
    l = [.has (h.loc (arrayMetadataKey h.entry p)), .get (h.loc (arrayMetadataKey h.entry p))] ∨
    l = [.has (h.loc (arrayMetadataKey h.entry p)), .has (h.loc (groupMetadataKey h.entry p)),
      .get (h.loc (groupMetadataKey h.entry p))]) (Wide.Prog.of (Threads.listAttributes env h p)) [] := by
  refine logs_nodeKey ⟨_, .inr rfl, ⟨_, rfl⟩⟩ ?_ ?_
  · refine logs_get ⟨_, .inl rfl, ⟨_, rfl⟩⟩ fun v => ?_
    refine logs_lift ⟨_, .inl rfl, ⟨_, rfl⟩⟩ fun b _ => ?_
    refine logs_lift ⟨_, .inl rfl, ⟨_, rfl⟩⟩ fun j _ => ?_
    exact follows_of (.inl rfl)
  · refine logs_get ⟨_, .inr rfl, ⟨_, rfl⟩⟩ fun v => ?_
    refine logs_lift ⟨_, .inr rfl, ⟨_, rfl⟩⟩ fun b _ => ?_
    refine logs_lift ⟨_, .inr rfl, ⟨_, rfl⟩⟩ fun j _ => ?_
    exact follows_of (.inr rfl)

theorem logs_setAttributes {attrs : JsonObject} : Logs h (Follows fun l =>
    l = [.has (h.loc (arrayMetadataKey h.entry p)), .get (h.loc (arrayMetadataKey h.entry p))] ∨
    l = [.has (h.loc (arrayMetadataKey h.entry p)), .get (h.loc (arrayMetadataKey h.entry p)),
      .set (h.loc (arrayMetadataKey h.entry p))] ∨
    l = [.has (h.loc (arrayMetadataKey h.entry p)), .has (h.loc (groupMetadataKey h.entry p)),
      .get (h.loc (groupMetadataKey h.entry p))] ∨
    l = [.has (h.loc (arrayMetadataKey h.entry p)), .has (h.loc (groupMetadataKey h.entry p)),
      .get (h.loc (groupMetadataKey h.entry p)), .set (h.loc (groupMetadataKey h.entry p))])
    (Wide.Prog.of (Threads.setAttributes env h p attrs)) [] := by
  refine logs_nodeKey ⟨_, .inr (.inr (.inl rfl)), ⟨_, rfl⟩⟩ ?_ ?_
  · refine logs_get ⟨_, .inl rfl, ⟨_, rfl⟩⟩ fun v => ?_
    refine logs_lift ⟨_, .inl rfl, ⟨_, rfl⟩⟩ fun b _ => ?_
    refine logs_lift ⟨_, .inl rfl, ⟨_, rfl⟩⟩ fun j _ => ?_
    refine logs_lift ⟨_, .inl rfl, ⟨_, rfl⟩⟩ fun x _ => ?_
    split
    · exact fun r => follows_of (.inr (.inl rfl))
    · exact follows_of (.inl rfl)
  · refine logs_get ⟨_, .inr (.inr (.inl rfl)), ⟨_, rfl⟩⟩ fun v => ?_
    refine logs_lift ⟨_, .inr (.inr (.inl rfl)), ⟨_, rfl⟩⟩ fun b _ => ?_
    refine logs_lift ⟨_, .inr (.inr (.inl rfl)), ⟨_, rfl⟩⟩ fun j _ => ?_
    refine logs_lift ⟨_, .inr (.inr (.inl rfl)), ⟨_, rfl⟩⟩ fun x _ => ?_
    split
    · exact fun r => follows_of (.inr (.inr (.inr rfl)))
    · exact follows_of (.inr (.inr (.inl rfl)))

theorem logs_nodeExists : Logs h (Follows fun l =>
    l = [.has (h.loc (arrayMetadataKey h.entry p))] ∨
    l = [.has (h.loc (arrayMetadataKey h.entry p)), .has (h.loc (groupMetadataKey h.entry p))] ∨
    l = [.has (h.loc (arrayMetadataKey h.entry p)), .has (h.loc (groupMetadataKey h.entry p)),
      .has (h.loc (setExtension (setExtension (groupMetadataKey h.entry p) []) []))])
    (Wide.Prog.of (Threads.nodeExists h p)) [] := by
  refine logs_exists ⟨_, .inl rfl, ⟨_, rfl⟩⟩ fun a => ?_
  cases a
  · refine logs_exists ⟨_, .inr (.inl rfl), ⟨_, rfl⟩⟩ fun a => ?_
    cases a
    · exact fun r => follows_of (.inr (.inr rfl))
    · exact follows_of (.inr (.inl rfl))
  · exact follows_of (.inl rfl)

theorem logs_getArrayMetadata : Logs h (Follows fun l => l = [.get (h.loc (arrayMetadataKey h.entry p))])
    (Wide.Prog.of (Threads.getArrayMetadata env h p)) [] := by
  refine logs_get ⟨_, rfl, ⟨_, rfl⟩⟩ fun v => ?_
  refine logs_lift ⟨_, rfl, ⟨_, rfl⟩⟩ fun b _ => ?_
  exact follows_of rfl

theorem logs_metadataCheck {script : List StoreOp → Prop} {l : List StoreOp}
    (hs : script (l ++ [.get (h.loc (arrayMetadataKey h.entry p))])) :
    Logs h (Follows script) (Wide.Prog.of ((Threads.getArrayMetadata env h p).record id >>= fun r =>
      match r with
      | .ok _ => pure true
      | .err _ => pure false
      | .panic => Threads.pLift .panic)) l := by
  intro r
  cases r with
  | err e => exact follows_of hs
  | panic => exact follows_of hs
  | ok v =>
    cases v with
    | none => exact follows_of hs
    | some b =>
      show Logs h _ (Wide.Prog.of (Threads.Prog.bind (Threads.Prog.record id (.done (parseArrayMetadata env b))) _)) _
      cases parseArrayMetadata env b <;> exact follows_of hs

theorem logs_arrayExists : Logs h (Follows fun l =>
    l = [.has (h.loc (arrayMetadataKey h.entry p)), .get (h.loc (arrayMetadataKey h.entry p))] ∨
    l = [.has (h.loc (arrayMetadataKey h.entry p)), .has (h.loc (groupMetadataKey h.entry p)),
      .get (h.loc (arrayMetadataKey h.entry p))] ∨
    l = [.has (h.loc (arrayMetadataKey h.entry p)), .has (h.loc (groupMetadataKey h.entry p)),
      .has (h.loc (setExtension (setExtension (groupMetadataKey h.entry p) []) []))] ∨
    l = [.has (h.loc (arrayMetadataKey h.entry p)), .has (h.loc (groupMetadataKey h.entry p)),
      .has (h.loc (setExtension (setExtension (groupMetadataKey h.entry p) []) [])),
      .get (h.loc (arrayMetadataKey h.entry p))])
    (Wide.Prog.of (Threads.arrayExists env h p)) [] := by
  intro r
  cases r with
  | err e => exact Started.err ⟨_, .inl rfl, ⟨_, rfl⟩⟩
  | panic => exact Started.panic ⟨_, .inl rfl, ⟨_, rfl⟩⟩
  | ok a =>
    cases a
    · intro r
      cases r with
      | err e => exact Started.err ⟨_, .inr (.inl rfl), ⟨_, rfl⟩⟩
      | panic => exact Started.panic ⟨_, .inr (.inl rfl), ⟨_, rfl⟩⟩
      | ok a =>
        cases a
        · intro r
          cases r with
          | err e => exact follows_of (.inr (.inr (.inl rfl)))
          | panic => exact follows_of (.inr (.inr (.inl rfl)))
          | ok a =>
            cases a
            · exact follows_of (.inr (.inr (.inl rfl)))
            · exact logs_metadataCheck (.inr (.inr (.inr rfl)))
        · exact logs_metadataCheck (.inr (.inl rfl))
    · exact logs_metadataCheck (.inl rfl)

theorem logs_remove : Logs h (Follows fun l =>
    l = [.erase (h.loc (groupMetadataKey h.entry p)), .erase (h.loc (arrayMetadataKey h.entry p)),
      .erasePrefix (h.loc (dataPathKey p))]) (Wide.remove h p) [] := by
  intro r
  cases r with
  | err e => refine Started.err ?_; exact ⟨_, rfl, ⟨_, rfl⟩⟩
  | panic => refine Started.panic ?_; exact ⟨_, rfl, ⟨_, rfl⟩⟩
  | ok a =>
    intro r
    cases r with
    | err e => refine Started.err ?_; exact ⟨_, rfl, ⟨_, rfl⟩⟩
    | panic => refine Started.panic ?_; exact ⟨_, rfl, ⟨_, rfl⟩⟩
    | ok a =>
      intro r
      cases r <;> exact follows_of rfl

theorem logs_listNodes : Logs h (Follows fun l =>
    l = [.listDir (h.loc (metaRoot ++ '/' :: canonicalizePath p))]) (Wide.listNodes env h p) [] := by
  intro r
  cases r <;> exact follows_of rfl

end

/-! ## The calls on chunks and boxes -/

section
variable {env : Env} {h : Hier} {p : Str} {m : ArrayMetadata}

theorem logs_readChunk {t : RsType} {pos : List Nat} :
    Logs h (Follows fun l => l = [.get (h.loc (chunkKey p m pos))]) (Wide.Prog.of (Threads.readChunk env p m t pos)) [] := by
  refine logs_lift ⟨_, rfl, ⟨_, rfl⟩⟩ fun _ _ => ?_
  refine logs_get ⟨_, rfl, ⟨_, rfl⟩⟩ fun v => ?_
  cases v with
  | none => exact follows_of rfl
  | some b =>
    refine logs_lift ⟨_, rfl, ⟨_, rfl⟩⟩ fun c _ => ?_
    exact follows_of rfl

theorem logs_readCoord {t : RsType} {pos : List Nat} {buf : Option (DataChunk t)} {l : List StoreOp} :
    Logs h (Follows fun x => x = l ++ [.get (h.loc (chunkKey p m pos))])
      (Wide.Prog.of (Threads.readCoord env p m t pos buf)) l := by
  cases buf with
  | none =>
    refine logs_map ?_
    refine logs_lift ⟨_, rfl, ⟨_, rfl⟩⟩ fun _ _ => ?_
    refine logs_get ⟨_, rfl, List.prefix_rfl⟩ fun v => ?_
    cases v with
    | none => exact follows_of rfl
    | some b =>
      refine logs_lift ⟨_, rfl, List.prefix_rfl⟩ fun c _ => ?_
      exact follows_of rfl
  | some b =>
    refine logs_map ?_
    refine logs_lift ⟨_, rfl, ⟨_, rfl⟩⟩ fun _ _ => ?_
    refine logs_get ⟨_, rfl, List.prefix_rfl⟩ fun v => ?_
    cases v with
    | none => exact follows_of rfl
    | some b =>
      refine logs_lift ⟨_, rfl, List.prefix_rfl⟩ fun c _ => ?_
      exact follows_of rfl

theorem logs_readLoop {t : RsType} {b : BBox} (ps : List (List Nat)) :
    ∀ {arr : NdArr (El t)} {buf : Option (DataChunk t)} {l : List StoreOp},
    Logs h (Follows fun x => x = l ++ ps.map fun pos => .get (h.loc (chunkKey p m pos)))
      (Wide.Prog.of (Threads.readLoop env p m t b ps arr buf)) l := by
  induction ps with
  | nil => intro arr buf l; exact follows_of (by simp)
  | cons pos ps ih =>
    intro arr buf l
    unfold Threads.readLoop
    rw [of_bind]
    have hst : ∀ r : Outcome (NdArr (El t) × Option (DataChunk t)), (∀ a, r ≠ .ok a) → ∀ l' : List StoreOp,
        l' <+: l ++ [.get (h.loc (chunkKey p m pos))] →
        Follows (fun x => x = l ++ (pos :: ps).map fun pos => .get (h.loc (chunkKey p m pos))) r l' := by
      intro r hr l' hl
      refine Started.bad ?_ hr
      exact ⟨_, rfl, hl.trans ⟨ps.map fun pos => .get (h.loc (chunkKey p m pos)), by simp⟩⟩
    refine logs_readCoord.bind (fun a l' ha => ?_) (fun e l' he => ?_) (fun l' he => ?_)
    · obtain ⟨x, rfl, _, hx⟩ := ha
      obtain rfl := hx ⟨_, rfl⟩
      have key : ∀ {arr buf}, Logs h (Follows fun x => x = l ++ (pos :: ps).map fun pos => .get (h.loc (chunkKey p m pos)))
          (Wide.Prog.of (Threads.readLoop env p m t b ps arr buf)) (l ++ [.get (h.loc (chunkKey p m pos))]) := by
        intro arr buf
        refine ih.mono fun r l'' hf => ?_
        simpa [Follows, List.append_assoc] using hf
      split
      · refine logs_lift ⟨_, rfl, ps.map fun pos => .get (h.loc (chunkKey p m pos)), by simp⟩ fun _ _ => key
      · exact key
    · obtain ⟨x, rfl, hl⟩ := he.started
      exact hst _ (by simp) _ hl
    · obtain ⟨x, rfl, hl⟩ := he.started
      exact hst _ (by simp) _ hl

/-- What `bounded_coord_iter` yields. -/
theorem coords_in_order {b : BBox} (hf : BoxMeetsChunks m b) :
    ∃ it, m.boundedCoordIter b = .ok it ∧ ChunksInOrder m b it.rest := by
  obtain ⟨q, h1, h2⟩ := hf.meets
  have e1 := Inside.length h1
  have e2 := InBox.length h2
  obtain ⟨it, xs, hit, hy, hs, _, hm⟩ := C16_partial m b hf.dims hf.pos hf.some (by omega) (by omega)
  obtain rfl := yields_iff.mp hy
  exact ⟨it, hit, hs, hm hf.meets⟩

theorem logs_readNdarray {t : RsType} {b : BBox} (hf : BoxMeetsChunks m b) :
    Logs h (Follows fun l => ∃ ps, ChunksInOrder m b ps ∧ l = ps.map fun pos => .get (h.loc (chunkKey p m pos)))
      (Wide.Prog.of (Threads.readNdarray env p m t b)) [] := by
  obtain ⟨it, hit, ho⟩ := coords_in_order hf
  have hst : Started (fun l => ∃ ps, ChunksInOrder m b ps ∧ l = ps.map fun pos => .get (h.loc (chunkKey p m pos))) [] :=
    ⟨_, ⟨_, ho, rfl⟩, List.nil_prefix⟩
  refine logs_lift hst fun fill _ => ?_
  refine logs_map ?_
  unfold Threads.readNdarrayIntoWithBuffer
  split
  · exact hst.err
  split
  · exact hst.err
  refine logs_lift hst fun it' hit' => ?_
  obtain rfl : it = it' := by rw [hit] at hit'; exact Outcome.ok.inj hit'
  refine (logs_readLoop _).mono fun r l ⟨x, h1, h2, h3⟩ => ⟨x, ⟨_, ho, ?_⟩, h2, h3⟩
  simpa using h1

theorem covers_corner (ks : List Nat) (cs : List Nat) (hl : cs.length = ks.length) (hk : ∀ k ∈ ks, k ≠ 0) :
    Covers ks cs (List.zipWith (· * ·) cs ks) := by
  induction ks generalizing cs with
  | nil => cases cs <;> simp_all [Covers]
  | cons k ks ih =>
    cases cs with
    | nil => simp at hl
    | cons c cs =>
      have hk0 := Nat.pos_of_ne_zero (hk k (by simp))
      refine ⟨⟨Nat.le_refl _, ?_⟩, ih cs (by simpa using hl) fun x hx => hk x (by simp [hx])⟩
      show c * k < (c + 1) * k
      rw [Nat.add_mul, Nat.one_mul]; omega

theorem isect_whole (ks : List Nat) : ∀ (cs os ws : List Nat), cs.length = ks.length → os.length = ks.length →
    ws.length = ks.length → (∀ k ∈ ks, k ≠ 0) →
    (isectLoop ks (List.zipWith (· * ·) cs ks) ws os = (ks, List.zipWith (· * ·) cs ks) ↔
      ∀ p, Covers ks cs p → InBox os ws p) := by
  induction ks with
  | nil =>
    intro cs os ws h1 h2 h3 _
    cases cs <;> cases os <;> cases ws <;> simp at h1 h2 h3
    simp only [List.zipWith_nil_left, isectLoop, true_iff]
    intro p hp
    cases p <;> simp_all [Covers, InBox]
  | cons k ks ih =>
    intro cs os ws h1 h2 h3 hk
    cases cs <;> cases os <;> cases ws <;> simp at h1 h2 h3
    rename_i c cs o os w ws
    have hk0 := Nat.pos_of_ne_zero (hk k (by simp))
    have hk' : ∀ x ∈ ks, x ≠ 0 := fun x hx => hk x (by simp [hx])
    have e : (c + 1) * k = c * k + k := by rw [Nat.add_mul, Nat.one_mul]
    have hi := ih cs os ws h1 h2 h3 hk'
    simp only [List.zipWith_cons_cons, isectLoop, Prod.mk.injEq, List.cons.injEq]
    rw [Prod.ext_iff] at hi
    simp only at hi
    constructor
    · rintro ⟨⟨a1, a2⟩, a3, a4⟩ p hp
      cases p with
      | nil => simp [Covers] at hp
      | cons x p =>
        simp only [Covers, InBox] at hp ⊢
        exact ⟨by omega, hi.mp ⟨a2, a4⟩ p hp.2⟩
    · intro hall
      have hc := covers_corner ks cs h1 hk'
      have hb : InBox os ws (List.zipWith (· * ·) cs ks) :=
        (hall (c * k :: _) ⟨⟨Nat.le_refl _, by omega⟩, hc⟩).2
      have b1 := (hall (c * k :: _) ⟨⟨Nat.le_refl _, by omega⟩, hc⟩).1
      have b2 := (hall ((c * k + k - 1) :: _) ⟨⟨by omega, by omega⟩, hc⟩).1
      obtain ⟨c1, c2⟩ := hi.mpr fun p hp => (hall (c * k :: p) ⟨⟨Nat.le_refl _, by omega⟩, hp⟩).2
      exact ⟨⟨by omega, c1⟩, by omega, c2⟩

theorem whole_iff {b bb : BBox} {pos : List Nat} (h1 : pos.length = m.chunkShape.length)
    (h2 : b.offset.length = m.chunkShape.length) (h3 : b.shape.length = m.chunkShape.length)
    (hk : ∀ k ∈ m.chunkShape, k ≠ 0) (hi : (m.chunkBounds pos).intersect b = .ok bb) :
    bb = m.chunkBounds pos ↔ ChunkInBox m b pos := by
  unfold BBox.intersect at hi
  split at hi
  · simp only [Outcome.ok.injEq] at hi
    subst hi
    unfold ChunkInBox
    rw [← isect_whole m.chunkShape pos b.offset b.shape h1 h2 h3 hk]
    simp only [ArrayMetadata.chunkBounds, BBox.mk.injEq, Prod.ext_iff]
    exact and_comm
  · simp at hi

theorem writeScript_exists (b : BBox) (ps : List (List Nat)) : ∃ l, WriteScript h p m b ps l := by
  induction ps with
  | nil => exact ⟨_, .nil⟩
  | cons pos ps ih =>
    obtain ⟨l, hl⟩ := ih
    by_cases hc : ChunkInBox m b pos
    · exact ⟨_, .whole hc hl⟩
    · exact ⟨_, .part hc hl⟩

theorem logs_writeCoord {t : RsType} {b : BBox} {fill : El t} {array : NdArr (El t)} {pos : List Nat}
    {existing : List (El t)} {l : List StoreOp} (h1 : pos.length = m.chunkShape.length)
    (h2 : b.offset.length = m.chunkShape.length) (h3 : b.shape.length = m.chunkShape.length)
    (hk : ∀ k ∈ m.chunkShape, k ≠ 0) :
    Logs h (Follows fun x => ChunkInBox m b pos ∧ x = l ++ [.set (h.loc (chunkKey p m pos))] ∨
      ¬ ChunkInBox m b pos ∧ x = l ++ [.get (h.loc (chunkKey p m pos)), .set (h.loc (chunkKey p m pos))])
      (Wide.Prog.of (Threads.writeCoord env p m b fill array pos existing)) l := by
  have hst : Started (fun x => ChunkInBox m b pos ∧ x = l ++ [.set (h.loc (chunkKey p m pos))] ∨
      ¬ ChunkInBox m b pos ∧ x = l ++ [.get (h.loc (chunkKey p m pos)), .set (h.loc (chunkKey p m pos))]) l := by
    by_cases hc : ChunkInBox m b pos
    · exact ⟨_, .inl ⟨hc, rfl⟩, _, rfl⟩
    · exact ⟨_, .inr ⟨hc, rfl⟩, _, rfl⟩
  unfold Threads.writeCoord
  dsimp only
  refine logs_lift hst fun bb hbb => ?_
  refine logs_lift hst fun _ _ => ?_
  refine logs_lift hst fun _ _ => ?_
  have hw := whole_iff h1 h2 h3 hk hbb
  split
  · rename_i he
    have hc := hw.mp he
    exact logs_set ⟨_, .inl ⟨hc, rfl⟩, List.prefix_rfl⟩ (follows_of (.inl ⟨hc, rfl⟩))
  · rename_i he
    have hc : ¬ ChunkInBox m b pos := fun hc => he (hw.mpr hc)
    have hst2 : Started (fun x => ChunkInBox m b pos ∧ x = l ++ [.set (h.loc (chunkKey p m pos))] ∨
        ¬ ChunkInBox m b pos ∧ x = l ++ [.get (h.loc (chunkKey p m pos)), .set (h.loc (chunkKey p m pos))])
        (l ++ [.get (h.loc (chunkKey p m pos))]) :=
      ⟨_, .inr ⟨hc, rfl⟩, [.set (h.loc (chunkKey p m pos))], by simp⟩
    unfold Threads.writePartial
    rw [of_bind]
    have hread : Logs h (Follows fun x => x = l ++ [.get (h.loc (chunkKey p m pos))])
        (Wide.Prog.of (Threads.readChunkInto env p m t pos ⟨pos, existing⟩)) l := by
      refine logs_lift ⟨_, rfl, ⟨_, rfl⟩⟩ fun _ _ => ?_
      refine logs_get ⟨_, rfl, List.prefix_rfl⟩ fun v => ?_
      cases v with
      | none => exact follows_of rfl
      | some b =>
        refine logs_lift ⟨_, rfl, List.prefix_rfl⟩ fun c _ => ?_
        exact follows_of rfl
    have hbad : ∀ {r : Outcome (List (El t))}, (∀ a, r ≠ .ok a) → ∀ l' : List StoreOp,
        l' <+: l ++ [.get (h.loc (chunkKey p m pos))] →
        Follows (fun x => ChunkInBox m b pos ∧ x = l ++ [.set (h.loc (chunkKey p m pos))] ∨
          ¬ ChunkInBox m b pos ∧ x = l ++ [.get (h.loc (chunkKey p m pos)), .set (h.loc (chunkKey p m pos))]) r l' := by
      intro r hr l' hl
      refine Started.bad ?_ hr
      exact ⟨_, .inr ⟨hc, rfl⟩, hl.trans ⟨[.set (h.loc (chunkKey p m pos))], by simp⟩⟩
    refine hread.bind (fun a l' ha => ?_) (fun e l' he => ?_) (fun l' he => ?_)
    · obtain ⟨x, rfl, _, hx⟩ := ha
      obtain rfl := hx ⟨_, rfl⟩
      refine logs_lift hst2 fun _ _ => ?_
      refine logs_lift hst2 fun _ _ => ?_
      refine logs_lift hst2 fun _ _ => ?_
      have hfin : ChunkInBox m b pos ∧
          l ++ [.get (h.loc (chunkKey p m pos))] ++ [.set (h.loc (chunkKey p m pos))] =
            l ++ [.set (h.loc (chunkKey p m pos))] ∨
          ¬ ChunkInBox m b pos ∧ l ++ [.get (h.loc (chunkKey p m pos))] ++ [.set (h.loc (chunkKey p m pos))] =
            l ++ [.get (h.loc (chunkKey p m pos)), .set (h.loc (chunkKey p m pos))] := .inr ⟨hc, by simp⟩
      exact logs_set ⟨_, hfin, List.prefix_rfl⟩ (follows_of hfin)
    · obtain ⟨x, rfl, hl⟩ := he.started
      exact hbad (by simp) _ hl
    · obtain ⟨x, rfl, hl⟩ := he.started
      exact hbad (by simp) _ hl

theorem logs_writeLoop {t : RsType} {b : BBox} {fill : El t} {array : NdArr (El t)}
    (hloc : ∀ pos, h.loc (chunkKey p m pos) = chunkLoc h p m.separator pos)
    (h2 : b.offset.length = m.chunkShape.length) (h3 : b.shape.length = m.chunkShape.length)
    (hk : ∀ k ∈ m.chunkShape, k ≠ 0) (ps : List (List Nat)) (hps : ∀ pos ∈ ps, pos.length = m.chunkShape.length) :
    ∀ {existing : List (El t)} {l : List StoreOp},
    Logs h (Follows fun x => ∃ y, WriteScript h p m b ps y ∧ x = l ++ y)
      (Wide.Prog.of (Threads.writeLoop env p m b fill array ps existing)) l := by
  induction ps with
  | nil => intro existing l; exact follows_of ⟨_, .nil, by simp⟩
  | cons pos ps ih =>
    intro existing l
    unfold Threads.writeLoop
    rw [of_bind]
    obtain ⟨y, hy⟩ := writeScript_exists (h := h) (p := p) b ps
    have ih' := @ih fun q hq => hps q (by simp [hq])
    have hst : ∀ {x l' : List StoreOp}, (ChunkInBox m b pos ∧ x = l ++ [.set (h.loc (chunkKey p m pos))] ∨
        ¬ ChunkInBox m b pos ∧ x = l ++ [.get (h.loc (chunkKey p m pos)), .set (h.loc (chunkKey p m pos))]) →
        l' <+: x → Started (fun x => ∃ y, WriteScript h p m b (pos :: ps) y ∧ x = l ++ y) l' := by
      intro x l' hx hl
      obtain ⟨hc, rfl⟩ | ⟨hc, rfl⟩ := hx
      · exact ⟨_, ⟨_, .whole hc hy, rfl⟩, hl.trans ⟨y, by simp [hloc]⟩⟩
      · exact ⟨_, ⟨_, .part hc hy, rfl⟩, hl.trans ⟨y, by simp [hloc]⟩⟩
    refine (logs_writeCoord (hps pos (by simp)) h2 h3 hk).bind (fun a l' ha => ?_) (fun e l' he => ?_) (fun l' he => ?_)
    · obtain ⟨x, hx, _, he⟩ := ha
      obtain rfl := he ⟨_, rfl⟩
      refine ih'.mono fun r l'' ⟨z, ⟨w, hw, hzw⟩, hz, hz'⟩ => ?_
      subst hzw
      obtain ⟨hc, rfl⟩ | ⟨hc, rfl⟩ := hx
      · exact ⟨_, ⟨_, .whole hc hw, by simp [hloc]⟩, hz, hz'⟩
      · exact ⟨_, ⟨_, .part hc hw, by simp [hloc]⟩, hz, hz'⟩
    · obtain ⟨x, hx, hl⟩ := he.started
      exact (hst hx hl).err
    · obtain ⟨x, hx, hl⟩ := he.started
      exact (hst hx hl).panic

theorem logs_writeNdarray {t : RsType} {offset : List Nat} {array : NdArr (El t)}
    (hloc : ∀ pos, h.loc (chunkKey p m pos) = chunkLoc h p m.separator pos)
    (hf : BoxMeetsChunks m ⟨offset, array.shape⟩) :
    Logs h (Follows fun l => ∃ ps, ChunksInOrder m ⟨offset, array.shape⟩ ps ∧
        WriteScript h p m ⟨offset, array.shape⟩ ps l)
      (Wide.Prog.of (Threads.writeNdarray env p m offset array)) [] := by
  obtain ⟨it, hit, ho⟩ := coords_in_order hf
  obtain ⟨y, hy⟩ := writeScript_exists (h := h) (p := p) ⟨offset, array.shape⟩ it.rest
  have hst : Started (fun l => ∃ ps, ChunksInOrder m ⟨offset, array.shape⟩ ps ∧
      WriteScript h p m ⟨offset, array.shape⟩ ps l) [] := ⟨_, ⟨_, ho, hy⟩, List.nil_prefix⟩
  obtain ⟨q, q1, q2⟩ := hf.meets
  have e1 := Inside.length q1
  have e2 := InBox.length q2
  have e3 := hf.dims
  unfold Threads.writeNdarray
  split
  · exact hst.err
  dsimp only
  refine logs_lift hst fun fill _ => ?_
  refine logs_lift hst fun it' hit' => ?_
  obtain rfl : it = it' := by rw [hit] at hit'; exact Outcome.ok.inj hit'
  refine (logs_writeLoop hloc (by simp at e2 ⊢; omega) (by simp at e2 ⊢; omega) hf.pos _ fun pos hp => ?_).mono
    fun r l ⟨x, ⟨w, hw, hx⟩, h2, h3⟩ => ⟨x, ⟨_, ho, ?_⟩, h2, h3⟩
  · obtain ⟨q, _, _, hq⟩ := (ho.2 pos).mp hp
    have := Covers.length hq
    omega
  · simpa [hx] using hw

end

/-! ## All calls -/

section
variable {env : Env} {h : Hier} {md : List Str → ArrayMetadata}

/-- The call has a result; the log is the beginning of a script, and a whole one if the call succeeded. -/
def Ends (script : List StoreOp → Prop) (r : Outcome WResult) (l : List StoreOp) : Prop :=
  ∃ res, r = .ok res ∧ ∃ x, script x ∧ l <+: x ∧ (res.Succeeded → l = x)

theorem Logs.result {α : Type} {P : Wide.Prog α} {script : List StoreOp → Prop} {f : Outcome α → WResult}
    (hf : ∀ r, (f r).Succeeded → ∃ a, r = .ok a) (hp : Logs h (Follows script) P []) :
    Logs h (Ends script) (P.record f) [] :=
  Logs.record (hp.mono fun r _ ⟨x, h1, h2, h3⟩ => ⟨_, rfl, x, h1, h2, fun hr => h3 (hf r hr)⟩)

theorem Logs.result' {α : Type} {P : Threads.Prog α} {script : List StoreOp → Prop} {f : Outcome α → HResult}
    (hf : ∀ r, (WResult.plain (.plain (f r))).Succeeded → ∃ a, r = .ok a)
    (hp : Logs h (Follows script) (Wide.Prog.of P) []) :
    Logs h (Ends script) ((Wide.Prog.of (P.record f)).bind fun r => .done (.ok (.plain (.plain r)))) [] := by
  refine Logs.bind (Q := fun r l => ∃ res, r = .ok res ∧ ∃ x, script x ∧ l <+: x ∧
      ((WResult.plain (.plain res)).Succeeded → l = x))
    (logs_of_record (hp.mono fun r l ⟨x, h1, h2, h3⟩ => ⟨_, rfl, x, h1, h2, fun hr => h3 (hf r hr)⟩)) ?_ ?_ ?_
  · rintro a l ⟨res, e, x, h1, h2, h3⟩
    cases e
    exact ⟨_, rfl, x, h1, h2, h3⟩
  · rintro e l ⟨res, he, _⟩; simp at he
  · rintro l ⟨res, he, _⟩; simp at he

theorem bind_succeeded {α β : Type} {r : Outcome α} {f : α → β} (h : ∃ a, (r >>= fun x => Outcome.ok (f x)) = .ok a) :
    ∃ a, r = .ok a := by
  obtain ⟨a, ha⟩ := h
  cases r with
  | ok a => exact ⟨a, rfl⟩
  | err e => simp at ha
  | panic => simp at ha

theorem logs_call (hsuf : GoodSuffix h.entry) (hdot : '.' ∉ stripDot h.entry.metadataKeySuffix)
    (hsep : ∀ q, GoodSep (md q).separator) (c : WCall) (hok : c.Fits h md) :
    Logs h (Ends fun l => c.Script h md l) (Wide.callProg env h md c) [] := by
  have ea : ∀ {p}, OrdinaryPath h p → docLoc h str!"array" p = h.loc (arrayMetadataKey h.entry p) :=
    fun hp => (loc_arrayKey hsuf hp.plain).symm
  have eg : ∀ {p}, OrdinaryPath h p → docLoc h str!"group" p = h.loc (groupMetadataKey h.entry p) :=
    fun hp => (loc_groupKey hsuf hp.plain).symm
  have ei : ∀ {p}, OrdinaryPath h p →
      implicitLoc h p = h.loc (setExtension (setExtension (groupMetadataKey h.entry p) []) []) := by
    intro p hp
    rw [Hier.loc, segs_implicitKey hsuf hdot hp.plain]; rfl
  have ec : ∀ {p pos}, chunkLoc h p (md (segs p)).separator pos = h.loc (chunkKey p (md (segs p)) pos) :=
    fun {p pos} => (loc_chunkKey ((hsep _).imp id And.right)).symm
  cases c with
  | listNodes p =>
    have el : implicitLoc h p = h.loc (metaRoot ++ '/' :: canonicalizePath p) := by
      rw [Hier.loc, segs_append_sep, segs_canonicalizePath]; rfl
    simp only [WCall.Script, el]
    exact Logs.result (f := .names) (fun r hr => hr) logs_listNodes
  | call c =>
    cases c with
    | readBox p t b =>
      simp only [WCall.Script, ec]
      exact Logs.result (fun r hr => bind_succeeded hr) (logs_readNdarray hok.2)
    | writeBox p t o a =>
      simp only [WCall.Script]
      exact Logs.result (f := fun r => .plain (.plain (.unit r))) (fun r hr => hr)
        (logs_writeNdarray (fun pos => ec.symm) hok.2)
    | call c =>
      cases c with
      | remove p =>
        simp only [WCall.Script, ea hok, eg hok, ← loc_dataKey]
        exact Logs.result (f := fun r => .plain (.plain (.unit r))) (fun r hr => hr) logs_remove
      | createGroup p =>
        simp only [WCall.Script, ea hok, eg hok]
        exact Logs.result' (f := .unit) (fun r hr => hr) logs_createGroup
      | createArray p m =>
        simp only [WCall.Script, ea hok, eg hok]
        exact Logs.result' (f := .unit) (fun r hr => hr) logs_createArray
      | setAttributes p b =>
        simp only [WCall.Script, ea hok, eg hok]
        exact Logs.result' (f := .unit) (fun r hr => hr) logs_setAttributes
      | writeChunk p t c =>
        simp only [WCall.Script, ec]
        exact Logs.result' (f := .unit) (fun r hr => hr) (fun r => follows_of rfl)
      | deleteChunk p pos =>
        simp only [WCall.Script, ec]
        exact Logs.result' (f := .bool) (fun r hr => hr) (fun r => follows_of rfl)
      | nodeExists p =>
        simp only [WCall.Script, ea hok, eg hok, ei hok]
        exact Logs.result' (f := .bool) (fun r hr => hr) logs_nodeExists
      | arrayExists p =>
        simp only [WCall.Script, ea hok, eg hok, ei hok]
        exact Logs.result' (f := .bool) (fun r hr => hr) logs_arrayExists
      | getArrayMetadata p =>
        simp only [WCall.Script, ea hok]
        exact Logs.result' (fun r hr => bind_succeeded hr) logs_getArrayMetadata
      | listAttributes p =>
        simp only [WCall.Script, ea hok, eg hok]
        exact Logs.result' (fun r hr => bind_succeeded hr) logs_listAttributes
      | readChunk p t pos =>
        simp only [WCall.Script, ec]
        exact Logs.result' (fun r hr => bind_succeeded hr) logs_readChunk

/-- **C109.** On every store, whatever it answers: the store calls made by a call of the API, in their order, are the
beginning of a script of that call, and all of one if the call succeeds. -/
theorem C109 {σ : Type} (S : Store σ) (s : σ) (env : Env) (h : Hier) (md : List Str → ArrayMetadata)
    (hsuf : GoodSuffix h.entry) (hdot : '.' ∉ stripDot h.entry.metadataKeySuffix)
    (hsep : ∀ q, GoodSep (md q).separator) (c : WCall) (hok : c.Fits h md) :
    ∃ res s' log script, (logged h S).run (Wide.callProg env h md c) (s, []) = (.ok res, s', log) ∧
      S.run (Wide.callProg env h md c) s = (.ok res, s') ∧
      c.Script h md script ∧ log <+: script ∧ (res.Succeeded → log = script) := by
  have hl := run_logged (h := h) (S := S) (Wide.callProg env h md c) s []
  obtain ⟨res, hres, x, h1, h2, h3⟩ := (logs_call (env := env) hsuf hdot hsep c hok).run (S := S) (s := s)
  exact ⟨res, (S.run (Wide.callProg env h md c) s).2, _, x, Prod.ext hres (Prod.ext hl.2 rfl),
    Prod.ext (hl.1.symm.trans hres) rfl, h1, h2, h3⟩

end

/-- Elements 1 to 4 of an array of five elements, in chunks of two. -/
def Demo.boxWrite : WCall := .call (.writeBox str!"a" .u16 [1] ⟨[4], fun _ => (7#16 : BitVec 16)⟩)

theorem Demo.boxWrite_fits : Demo.boxWrite.Fits Demo.hier fun _ => Demo.arr := by
  refine ⟨fun s hs => ordinary_ab (.inl ?_), by decide, by decide, by decide, [1], by simp [Inside, Demo.arr], by simp [InBox]⟩
  have : segs str!"a" = [str!"a"] := by decide
  rw [this] at hs
  simpa using hs

/-- Nothing is stored: the first and last chunk are read and written, the chunk inside the box is only written. -/
example : ((logged Demo.hier (memory fun _ _ => false)).run
      (Wide.callProg Demo.envJ Demo.hier (fun _ => Demo.arr) Demo.boxWrite) ([], [])).2.2 =
    [.get (chunkLoc Demo.hier str!"a" str!"/" [0]), .set (chunkLoc Demo.hier str!"a" str!"/" [0]),
     .set (chunkLoc Demo.hier str!"a" str!"/" [1]),
     .get (chunkLoc Demo.hier str!"a" str!"/" [2]), .set (chunkLoc Demo.hier str!"a" str!"/" [2])] := by
  decide +kernel

/-- Nothing can be stored: the call ends after its second store call. -/
example : ((logged Demo.hier { memory fun _ _ => false with set := fun _ _ s => (.err .other, s) }).run
      (Wide.callProg Demo.envJ Demo.hier (fun _ => Demo.arr) Demo.boxWrite) ([], [])).2.2 =
    [.get (chunkLoc Demo.hier str!"a" str!"/" [0]), .set (chunkLoc Demo.hier str!"a" str!"/" [0])] := by
  decide +kernel

example : ∃ res s' log script, (logged Demo.hier (memory fun _ _ => false)).run
      (Wide.callProg Demo.envJ Demo.hier (fun _ => Demo.arr) Demo.boxWrite) ([], []) = (.ok res, s', log) ∧
      (memory fun _ _ => false).run (Wide.callProg Demo.envJ Demo.hier (fun _ => Demo.arr) Demo.boxWrite) [] = (.ok res, s') ∧
      Demo.boxWrite.Script Demo.hier (fun _ => Demo.arr) script ∧ log <+: script ∧ (res.Succeeded → log = script) :=
  C109 _ _ _ _ _ (by unfold GoodSuffix; decide) (by decide) (fun _ => .inl rfl) _ Demo.boxWrite_fits

end Any

end Zarr
