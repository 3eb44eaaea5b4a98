import Verif.Lemmas.Chunk
import Verif.Lemmas.ChunkKey
import Verif.Props.Chunk
/-!
# Chunk keys and histories of chunk operations: C03, C04, C05
-/

namespace Zarr

open Spec

/-! ## C04 -/

/-- **C04 (partial).** For separators that start with a character other than a digit and do not
contain `/c` (in particular `/` and `.`), a chunk key determines the array path (up to slashes at its
ends) and the grid position. Missing: the other separators (see `C04_violated`). -/
theorem C04_partial (path path' : Str) (m m' : ArrayMetadata) (pos pos' : List Nat)
    (hs : ∃ c r, m.separator = c :: r ∧ (c.toNat < 48 ∨ 57 < c.toNat))
    (hc : ¬ [ '/', 'c' ] <:+: m.separator) (hc' : ¬ [ '/', 'c' ] <:+: m'.separator)
    (hk : chunkKey path m pos = chunkKey path' m' pos') :
    canonicalizePath path = canonicalizePath path' ∧
      (m.separator = m'.separator → pos = pos') := by
  have conv : ∀ s : Str, ¬ [ '/', 'c' ] <:+: s → hasSlashC s = false := by
    intro s hs
    induction s with
    | nil => rfl
    | cons a as ih =>
      rw [hasSlashC_cons, Bool.or_eq_false_iff]
      refine ⟨?_, ih (fun h => hs (h.trans (List.suffix_cons _ _).isInfix))⟩
      rw [Bool.eq_false_iff]
      intro h
      simp at h
      obtain ⟨rfl, h2⟩ := h
      cases as with
      | nil => simp at h2
      | cons b bs =>
        simp at h2; subst h2
        exact hs ⟨[], bs, rfl⟩
  have hsl := conv _ hc
  have hsl' := conv _ hc'
  rw [chunkKey_eq, chunkKey_eq] at hk
  obtain ⟨h1, h2⟩ := split_at_last_slashC (hasSlashC_joinCoords hsl pos).1
    (hasSlashC_joinCoords hsl' pos').1 hk
  constructor
  · unfold chunkDir at h1
    have h1 := List.append_cancel_left h1
    by_cases e1 : canonicalizePath path = [] <;> by_cases e2 : canonicalizePath path' = []
    · rw [e1, e2]
    · simp [e1, e2] at h1
    · simp [e1, e2] at h1
    · simpa [e1, e2] using h1
  · intro hsep
    rw [← hsep] at h2
    apply joinCoords_injective _ h2
    obtain ⟨c, r, hcr, hd⟩ := hs
    refine ⟨c, r, hcr, ?_⟩
    unfold isDigit
    rw [Bool.eq_false_iff]
    simp
    omega

example : (∃ c r, str!"/" = c :: r ∧ (c.toNat < 48 ∨ 57 < c.toNat)) ∧ ¬ [ '/', 'c' ] <:+: str!"/" ∧
    (∃ c r, str!"." = c :: r ∧ (c.toNat < 48 ∨ 57 < c.toNat)) ∧ ¬ [ '/', 'c' ] <:+: str!"." ∧
    chunkKey str!"/x/" Demo.arr [1] = chunkKey str!"x" Demo.arr [1] :=
  ⟨⟨_, _, rfl, by decide⟩, by decide, ⟨_, _, rfl, by decide⟩, by decide, by decide⟩

/-- **C04 (violated).** With an empty separator, with one made of digits, and with `/c`, different
positions or different arrays share a key. -/
theorem C04_violated :
    (chunkKey str!"a" { Demo.arr with separator := [] } [1, 11]
      = chunkKey str!"a" { Demo.arr with separator := [] } [11, 1]) ∧
    (chunkKey str!"a" { Demo.arr with separator := str!"1" } [1, 11]
      = chunkKey str!"a" { Demo.arr with separator := str!"1" } [11, 1]) ∧
    (chunkKey str!"" { Demo.arr with separator := str!"/c" } [1, 2]
      = chunkKey str!"c1" { Demo.arr with separator := str!"/c" } [2]) := by decide

/-! ## C03 -/

/-- Two chunks are stored at different locations unless they are the same chunk of the same array. -/
theorem chunk_loc_ne {h : Hier} {path path' : Str} {m m' : ArrayMetadata} {pos pos' : List Nat}
    (hs : GoodSep m.separator) (hs' : GoodSep m'.separator)
    (hne : segs path ≠ segs path' ∨ (m.separator = m'.separator ∧ pos ≠ pos')) :
    h.loc (chunkKey path' m' pos') ≠ h.loc (chunkKey path m pos) := by
  intro he
  unfold Hier.loc at he
  have he := List.append_cancel_left he
  rw [segs_chunkKey, segs_chunkKey] at he
  simp only [List.cons.injEq, true_and] at he
  obtain ⟨h1, h2⟩ := chunkTail_split hs' hs he
  rcases hne with hne | ⟨hsep, hne⟩
  · exact hne h1.symm
  · rw [hsep] at h2
    exact hne (chunkTail_injective hs' h2).symm

theorem plain_loc_chunk {h : Hier} {path : Str} {m : ArrayMetadata} (hb : Plain (segs h.base))
    (hp : Plain (segs path)) (hs : GoodSep m.separator) (pos : List Nat) :
    Plain (h.loc (chunkKey path m pos)) := hb.append (plain_segs_chunkKey hp hs pos)

/-- **C03.** Writing or deleting one chunk, successfully or not, does not change what `read_chunk`
returns for any other position of the array or any chunk of another array. Separators: `/`, or any
string without `/` that starts with a non-digit. -/
theorem C03 (env : Env) (h : Hier) (path path' : Str) (m m' : ArrayMetadata) {t t' : RsType}
    (c : DataChunk t) (pos' : List Nat) (fs : Fs) (hwf : fs.WF)
    (hb : Plain (segs h.base)) (hp : Plain (segs path)) (hp' : Plain (segs path'))
    (hs : GoodSep m.separator) (hs' : GoodSep m'.separator)
    (hne : segs path ≠ segs path' ∨ (m.separator = m'.separator ∧ c.gridPosition ≠ pos')) :
    (readChunk env h path' m' t' pos' (writeChunk env h path m c fs).2).1
        = (readChunk env h path' m' t' pos' fs).1 ∧
    (readChunk env h path' m' t' pos' (deleteChunk h path m c.gridPosition fs).2).1
        = (readChunk env h path' m' t' pos' fs).1 := by
  have hpl := plain_loc_chunk (m := m) hb hp hs c.gridPosition
  have hpl' := plain_loc_chunk (m := m') hb hp' hs' pos'
  have hloc := chunk_loc_ne (h := h) hs hs' hne
  constructor
  · apply readChunk_congr
    obtain ⟨hwf', hframe⟩ := storeSet_frame (h := h) (key := chunkKey path m c.gridPosition)
      (v := writeChunkBytes env.codecs env.native m c) hwf hpl (Prod.eta _).symm
    unfold writeChunk
    rw [storeGet_eq hwf' hpl', storeGet_eq hwf hpl']
    simp only
    rw [hframe _ hloc]
  · apply readChunk_congr
    obtain ⟨hwf', hframe, _⟩ := storeErase_frame (h := h) (key := chunkKey path m c.gridPosition)
      hwf hpl (Prod.eta _).symm
    unfold deleteChunk
    rw [storeGet_eq hwf' hpl', storeGet_eq hwf hpl']
    simp only
    rw [Fs.content_congr]
    rcases hframe (h.loc (chunkKey path' m' pos')) with h1 | h1
    · exact h1
    · exact absurd h1 hloc

example :
    let fs1 := (writeChunk Demo.env Demo.hier Demo.path Demo.arr Demo.chunk Demo.emptyFs).2
    let fs2 := (writeChunk Demo.env Demo.hier Demo.path Demo.arr
      { Demo.chunk with gridPosition := [2] } fs1).2
    Plain (segs Demo.hier.base) ∧ Plain (segs Demo.path) ∧ [1] ≠ [2] ∧
    (readChunk Demo.env Demo.hier Demo.path Demo.arr .u16 [1] fs2).1 = .ok (some Demo.chunk) := by
  decide

/-! ## C05 -/

/-- A call in a history: a write or a delete on some array. -/
inductive ChunkOp where
  | write (path : Str) (m : ArrayMetadata) (t : RsType) (c : DataChunk t)
  | delete (path : Str) (m : ArrayMetadata) (pos : List Nat)

/-- The array path of a call. -/
def ChunkOp.path : ChunkOp → Str
  | .write p _ _ _ => p
  | .delete p _ _ => p
/-- The array metadata of a call. -/
def ChunkOp.meta : ChunkOp → ArrayMetadata
  | .write _ m _ _ => m
  | .delete _ m _ => m
/-- The grid position of a call. -/
def ChunkOp.pos : ChunkOp → List Nat
  | .write _ _ _ c => c.gridPosition
  | .delete _ _ pos => pos

/-- Perform a call: did it return `Ok`, and the new filesystem. -/
def ChunkOp.run (env : Env) (h : Hier) (op : ChunkOp) (fs : Fs) : Bool × Fs :=
  match op with
  | .write p m _ c => let r := writeChunk env h p m c fs; (r.1.isOk, r.2)
  | .delete p m pos => let r := deleteChunk h p m pos fs; (r.1.isOk, r.2)

/-- Perform a history. -/
def runOps (env : Env) (h : Hier) : List ChunkOp → Fs → List Bool × Fs
  | [], fs => ([], fs)
  | op :: ops, fs =>
    let r := op.run env h fs
    let rs := runOps env h ops r.2
    (r.1 :: rs.1, rs.2)

/-- A typed vector of elements: what a reader sees of a chunk. -/
abbrev Data := (t : RsType) × List (El t)

/-- The value a successful call leaves in its cell of the map. -/
def Spec.newValue : ChunkOp → Outcome (Option Data)
  | .write _ _ t c => .ok (some ⟨t, c.data⟩)
  | .delete _ _ _ => .ok none

/-- The specification: the value of one cell of the map, updated by successful calls on its array path
and position. -/
def Spec.cell (path : Str) (pos : List Nat) :
    List (ChunkOp × Bool) → Outcome (Option Data) → Outcome (Option Data)
  | [], v => v
  | (op, ok) :: r, v =>
    Spec.cell path pos r
      (if ok ∧ segs op.path = segs path ∧ op.pos = pos then Spec.newValue op else v)

/-- What a reader of the chunk sees. -/
def observe (env : Env) (h : Hier) (path : Str) (m : ArrayMetadata) (t : RsType) (pos : List Nat)
    (fs : Fs) : Outcome (Option Data) :=
  (readChunk env h path m t pos fs).1 >>= fun o => .ok (o.map fun c => ⟨t, c.data⟩)

/-- A call is made with plain path, unambiguous separator, a compressor that never fails and whose
decoder inverts it, and, for a write, a chunk of the array's type and element count. -/
def ChunkOp.Fits (env : Env) (op : ChunkOp) : Prop :=
  Plain (segs op.path) ∧ GoodSep op.meta.separator ∧
    match op with
    | .write _ m t c => (codecOf env.codecs m.compressor).Lawful ∧
        (∀ segs, ((codecOf env.codecs m.compressor).encode segs).2 = .ok ()) ∧
        c.data.length = m.chunkShape.prod ∧ m.chunkShape.prod < 2 ^ 32 ∧
        ∃ d, effective m.dataType = some d ∧ kindOf d = kindOfRs t
    | .delete _ _ _ => True

theorem kindOfRs_injective {t t' : RsType} (h : kindOfRs t = kindOfRs t') : t = t' := by
  cases t <;> cases t' <;> first | rfl | (simp [kindOfRs] at h)

theorem observe_congr {env : Env} {h : Hier} {path : Str} {m : ArrayMetadata} {t : RsType}
    {pos : List Nat} {fs fs' : Fs}
    (hr : (readChunk env h path m t pos fs').1 = (readChunk env h path m t pos fs).1) :
    observe env h path m t pos fs' = observe env h path m t pos fs := by
  unfold observe; rw [hr]

/-- **C05.** After any history of writes and deletes on any arrays, `read_chunk` at a position of an
array returns what the last successful write to that position wrote, unless a successful delete
followed; without one it returns what it returned at the start. -/
theorem C05 (env : Env) (h : Hier) (path : Str) (m : ArrayMetadata) (t : RsType) (pos : List Nat)
    (d : DataType) (ops : List ChunkOp) (fs : Fs) (hwf : fs.WF) (hb : Plain (segs h.base))
    (hp : Plain (segs path)) (hs : GoodSep m.separator)
    (hin : m.inBounds pos = .ok true)
    (hd : effective m.dataType = some d) (hk : kindOf d = kindOfRs t)
    (hfits : ∀ op ∈ ops, op.Fits env)
    (hsame : ∀ op ∈ ops, segs op.path = segs path → op.meta = m) :
    observe env h path m t pos (runOps env h ops fs).2 =
      Spec.cell path pos (ops.zip (runOps env h ops fs).1) (observe env h path m t pos fs) := by
  induction ops generalizing fs with
  | nil => rfl
  | cons op ops ih =>
    have hfit := hfits op (by simp)
    have hop := hsame op (by simp)
    have hpl := plain_loc_chunk (h := h) (m := op.meta) hb hfit.1 hfit.2.1 op.pos
    have hpl' := plain_loc_chunk (h := h) (m := m) hb hp hs pos
    -- one step
    have step : (op.run env h fs).2.WF ∧
        observe env h path m t pos (op.run env h fs).2 =
          (if (op.run env h fs).1 = true ∧ segs op.path = segs path ∧ op.pos = pos then
            Spec.newValue op else observe env h path m t pos fs) := by
      by_cases htarget : segs op.path = segs path ∧ op.pos = pos
      · have hm := hop htarget.1
        cases op with
        | write p' m' t' c =>
          simp only [ChunkOp.path, ChunkOp.pos, ChunkOp.meta] at htarget hm hpl hfit
          subst hm
          obtain ⟨_, _, hlaw, htot, hlen, hlt, d', hd', hk'⟩ := hfit
          rw [hd] at hd'
          simp at hd'; subst hd'
          have htt : t' = t := kindOfRs_injective (hk'.symm.trans hk)
          subst htt
          obtain ⟨s1, s2⟩ := storeSet_spec (h := h) (key := chunkKey p' m' c.gridPosition)
            (writeChunkBytes env.codecs env.native m' c) hwf hpl
          have hkey : segs (chunkKey p' m' c.gridPosition) = segs (chunkKey path m' pos) := by
            rw [segs_chunkKey, segs_chunkKey, htarget.1, htarget.2]
          have hloc : h.loc (chunkKey p' m' c.gridPosition) = h.loc (chunkKey path m' pos) := by
            unfold Hier.loc; rw [hkey]
          by_cases hwr : Writable fs (h.loc (chunkKey p' m' c.gridPosition))
          · obtain ⟨fs1, h1, h2, h3⟩ := s1 hwr
            obtain ⟨sg, _, hwb⟩ := writeChunkBytes_fits (ext := env.codecs) (native := env.native)
              (m := m') (c := c) (effective_iff.mpr hd) ((eqModuloEndian_iff_kind _ _ _).mpr hk)
              (by rw [hlen, Nat.mod_eq_of_lt hlt]; rfl)
            have hok : (writeChunkBytes env.codecs env.native m' c).2 = .ok () := by
              rw [hwb]; exact htot sg
            have hw : writeChunk env h p' m' c fs = (.ok (), fs1) := by
              unfold writeChunk; rw [h1, hok]
            have hget : storeGet h (chunkKey path m' pos) fs1
                = (.ok (some (writeChunkBytes env.codecs env.native m' c).1), fs1) := by
              rw [storeGet_eq h2 hpl', ← hloc]
              have : fs1.content (h.loc (chunkKey p' m' c.gridPosition))
                  = some (writeChunkBytes env.codecs env.native m' c).1 := by
                apply Fs.content_eq_some.mpr; rw [h3, setSpec, if_pos rfl]
              rw [this]
            simp only [ChunkOp.run, hw, Outcome.isOk, ChunkOp.path, ChunkOp.pos, htarget, and_self,
              if_true]
            refine ⟨h2, ?_⟩
            unfold observe
            rw [readChunk_inBounds hin hget]
            simp only
            rw [readChunkBytes_writeChunkBytes hlaw hlen hok]
            rfl
          · obtain ⟨e, h1⟩ := s2 hwr
            have hw : writeChunk env h p' m' c fs = (.err e, fs) := h1
            simp only [ChunkOp.run, hw, Outcome.isOk]
            exact ⟨hwf, by simp⟩
        | delete p' m' pos' =>
          simp only [ChunkOp.path, ChunkOp.pos, ChunkOp.meta] at htarget hm hpl hfit
          subst hm
          obtain ⟨ht1, ht2⟩ := htarget
          subst ht2
          have htarget : segs p' = segs path ∧ pos' = pos' := ⟨ht1, rfl⟩
          have hkey : segs (chunkKey p' m' pos') = segs (chunkKey path m' pos') := by
            rw [segs_chunkKey, segs_chunkKey, htarget.1, htarget.2]
          have hloc : h.loc (chunkKey p' m' pos') = h.loc (chunkKey path m' pos') := by
            unfold Hier.loc; rw [hkey]
          obtain ⟨hwf', hfr, hnone⟩ := storeErase_frame (h := h) (key := chunkKey p' m' pos')
            hwf hpl (Prod.eta _).symm
          refine ⟨hwf', ?_⟩
          have hget : storeGet h (chunkKey path m' pos') (storeErase h (chunkKey p' m' pos') fs).2
              = (.ok none, (storeErase h (chunkKey p' m' pos') fs).2) := by
            rw [storeGet_eq hwf' hpl', ← hloc, hnone]
          have hobs : observe env h path m' t pos' (storeErase h (chunkKey p' m' pos') fs).2
              = .ok none := by
            unfold observe
            rw [readChunk_inBounds hin hget]; rfl
          simp only [ChunkOp.run, deleteChunk, ChunkOp.path, ChunkOp.pos, htarget, and_self, and_true]
          rw [hobs]
          split
          · rfl
          · rename_i hnok
            -- the call failed: nothing changed and nothing was there
            have hsame := storeErase_not_ok (h := h) (key := chunkKey p' m' pos') (fs := fs)
              (Prod.eta _).symm (by
                intro b hb
                rw [hb] at hnok
                exact hnok rfl)
            rw [hsame] at hobs
            exact hobs.symm
      · rw [if_neg (fun hh => htarget hh.2)]
        have hne : segs op.path ≠ segs path ∨ (op.meta.separator = m.separator ∧ op.pos ≠ pos) := by
          by_cases e : segs op.path = segs path
          · right; exact ⟨by rw [hop e], fun e2 => htarget ⟨e, e2⟩⟩
          · left; exact e
        cases op with
        | write p' m' t' c =>
          refine ⟨(storeSet_frame hwf hpl (Prod.eta _).symm).1, ?_⟩
          exact observe_congr (C03 env h p' path m' m c pos fs hwf hb hfit.1 hp hfit.2.1 hs hne).1
        | delete p' m' pos' =>
          refine ⟨(storeErase_frame hwf hpl (Prod.eta _).symm).1, ?_⟩
          exact observe_congr (C03 env h p' path m' m (⟨pos', []⟩ : DataChunk t) pos fs hwf hb hfit.1
            hp hfit.2.1 hs hne).2
    obtain ⟨hwf', hstep⟩ := step
    have := ih (op.run env h fs).2 hwf' (fun o ho => hfits o (by simp [ho]))
      (fun o ho => hsame o (by simp [ho]))
    simp only [runOps, List.zip_cons_cons, Spec.cell]
    rw [this, hstep]

example :
    let ops : List ChunkOp := [.write Demo.path Demo.arr .u16 Demo.chunk,
      .write str!"other" Demo.arr .u16 Demo.chunk, .delete str!"other" Demo.arr [1],
      .delete Demo.path Demo.arr [0]]
    observe Demo.env Demo.hier Demo.path Demo.arr .u16 [1] (runOps Demo.env Demo.hier ops Demo.emptyFs).2
        = .ok (some ⟨.u16, Demo.chunk.data⟩) ∧
    observe Demo.env Demo.hier str!"other" Demo.arr .u16 [1]
      (runOps Demo.env Demo.hier ops Demo.emptyFs).2 = .ok none := by
  exact ⟨rfl, rfl⟩

example : ChunkOp.Fits Demo.env (.write Demo.path Demo.arr .u16 Demo.chunk) :=
  ⟨by decide, Or.inl rfl, rawCodec_lawful, fun _ => rfl, by decide, by decide, _, rfl, by decide⟩

end Zarr
