import Verif.Lemmas.NdArr
import Verif.Lemmas.ReadOnly
import Verif.Props.Chunk
/-!
# Lemmas on reading n-dimensional boxes
-/

namespace Zarr

open Spec

/-- What `read_chunk` answers at a position. -/
abbrev look (env : Env) (h : Hier) (path : Str) (m : ArrayMetadata) (t : RsType) (fs : Fs)
    (pos : List Nat) : Outcome (Option (DataChunk t)) := (readChunk env h path m t pos fs).1

theorem readChunk_look {env : Env} {h : Hier} {path : Str} {m : ArrayMetadata} {t : RsType}
    {fs : Fs} {pos : List Nat} :
    readChunk env h path m t pos fs = (look env h path m t fs pos, fs) := by
  exact (readChunk_ro env h path m t pos).eq fs

theorem look_some {env : Env} {h : Hier} {path : Str} {m : ArrayMetadata} {t : RsType}
    {fs : Fs} {pos : List Nat} {c : DataChunk t} (hl : look env h path m t fs pos = .ok (some c)) :
    m.inBounds pos = .ok true ∧ c.gridPosition = pos ∧
      c.data.length = m.chunkShape.prod % 2 ^ 32 := by
  simp only [look, readChunk, M.bind_apply, M.lift_apply] at hl
  cases ha : assertInBounds m pos with
  | err e => simp [ha] at hl
  | panic => simp [ha] at hl
  | ok u =>
    simp only [ha] at hl
    rw [show storeGet h (chunkKey path m pos) fs = ((storeGet h (chunkKey path m pos) fs).1, fs)
      from rfl] at hl
    refine ⟨assertInBounds_ok.mp (by rw [ha]), ?_⟩
    cases hg : (storeGet h (chunkKey path m pos) fs).1 with
    | err e => simp [hg] at hl
    | panic => simp [hg] at hl
    | ok v =>
      cases v with
      | none => simp [hg] at hl
      | some b =>
        simp only [hg, M.bind_apply, M.lift_apply] at hl
        cases hr : readChunkBytes env.codecs env.native m t pos b with
        | err e => simp [hr] at hl
        | panic => simp [hr] at hl
        | ok c' =>
          simp [hr] at hl
          subst hl
          cases hc : checkArrayType env.native m t with
          | err e => rw [readChunkBytes_check_err hc] at hr; exact absurd hr (by simp)
          | panic => simp [readChunkBytes, hc] at hr
          | ok u =>
            obtain ⟨d, hd, ht⟩ := checkArrayType_ok.mp hc
            rw [readChunkBytes_eq hd ht, Outcome.bind_eq_ok] at hr
            obtain ⟨s, _, hr⟩ := hr
            split at hr
            · simp only [Outcome.ok.injEq] at hr
              subst hr
              exact ⟨rfl, elsOfBytes_length _ _ _ _⟩
            · exact absurd hr (by simp)

theorem readCoord_eq {env : Env} {h : Hier} {path : Str} {m : ArrayMetadata} {t : RsType}
    {fs : Fs} {pos : List Nat} (buf : Option (DataChunk t)) :
    readCoord env h path m t pos buf fs =
      match look env h path m t fs pos with
      | .ok none => (.ok (false, buf), fs)
      | .ok (some c) => (.ok (true, some c), fs)
      | .err e => (.err e, fs)
      | .panic => (.panic, fs) := by
  cases buf with
  | none =>
    simp only [readCoord, M.bind_apply, readChunk_look]
    cases look env h path m t fs pos with
    | ok r => cases r <;> rfl
    | err e => rfl
    | panic => rfl
  | some b =>
    simp only [readCoord, M.bind_apply, C11, readChunk_look]
    cases look env h path m t fs pos with
    | ok r => cases r <;> rfl
    | err e => rfl
    | panic => rfl

/-! ## Copying one chunk -/

theorem intersect_eq {a b : BBox} (h : a.offset.length = b.offset.length) :
    a.intersect b = .ok ⟨(isectLoop a.shape a.offset b.shape b.offset).2,
      (isectLoop a.shape a.offset b.shape b.offset).1⟩ := by
  simp only [BBox.intersect, h, if_true]

section Copy

variable {m : ArrayMetadata} {bbox : BBox} {t : RsType} {chunk : DataChunk t} {arr arr' : NdArr (El t)}

theorem copyChunk_spec (h1 : bbox.offset.length = bbox.shape.length)
    (h2 : m.chunkShape.length = bbox.shape.length)
    (h3 : chunk.gridPosition.length = bbox.shape.length) (hs : arr.shape = bbox.shape)
    (h : copyChunk m bbox chunk arr = .ok arr') :
    arr'.shape = bbox.shape ∧ ∀ i, Inside bbox.shape i →
      (Covers m.chunkShape chunk.gridPosition (shift bbox.offset i) →
        chunk.data[linear m.order m.chunkShape
          (rel (chunkOffset chunk.gridPosition m.chunkShape) (shift bbox.offset i))]?
            = some (arr'.get i)) ∧
      (¬ Covers m.chunkShape chunk.gridPosition (shift bbox.offset i) →
        arr'.get i = arr.get i) := by
  have hck : (chunkOffset chunk.gridPosition m.chunkShape).length = bbox.shape.length := by
    simp [h2, h3]
  have hiff : ∀ p, InBox (chunkOffset chunk.gridPosition m.chunkShape) m.chunkShape p
      ↔ Covers m.chunkShape chunk.gridPosition p := fun p => inBox_chunk (by omega)
  unfold copyChunk at h
  simp only at h
  rw [intersect_eq (show bbox.offset.length = (m.chunkBounds chunk.gridPosition).offset.length by
    rw [ArrayMetadata.chunkBounds, hck, h1])] at h
  simp only [Outcome.bind_ok, ArrayMetadata.chunkBounds] at h
  split at h
  · rename_i he
    simp only [Outcome.pure_def, Outcome.ok.injEq] at h
    subst h
    refine ⟨hs, fun i hi => ⟨fun hc => ?_, fun _ => rfl⟩⟩
    exfalso
    obtain ⟨hl1, hl2⟩ := isect_lengths (s := bbox.shape) (o := bbox.offset) (w := m.chunkShape)
      (k := chunkOffset chunk.gridPosition m.chunkShape) h1
    refine (inBox_empty hl1).mp he (shift bbox.offset i) ?_
    rw [inBox_isect h1 h2 hck]
    exact ⟨((inside_shift h1).mp hi).2, (hiff _).mpr hc⟩
  · obtain ⟨e1, e2⟩ := isect_sub (s := bbox.shape) (o := bbox.offset) (w := m.chunkShape)
      (k := chunkOffset chunk.gridPosition m.chunkShape) h1 h2 hck
    simp only [BBox.sub, e1, e2, Outcome.bind_ok, Outcome.pure_def] at h
    unfold asNdarray at h
    split at h
    · rename_i hle
      simp only [Outcome.bind_ok, Outcome.bind_eq_ok] at h
      obtain ⟨view, hv, ha⟩ := h
      obtain ⟨c1, c2⟩ := copy_isect (dst := arr)
        (src := NdArr.ofMemory (El.default t) m.order m.chunkShape chunk.data)
        (s := bbox.shape) (o := bbox.offset) (w := m.chunkShape)
        (k := chunkOffset chunk.gridPosition m.chunkShape) h1 h2 hck hs hv ha
      refine ⟨c1, fun i hi => ⟨fun hc => ?_, fun hc => ?_⟩⟩
      · have hb := (hiff _).mpr hc
        rw [(c2 i hi).1 hb, ofMemory_get]
        have hlt := linear_lt (o := m.order) (rel_inside hb)
        rw [List.getElem?_eq_getElem (Nat.lt_of_lt_of_le hlt hle)]
        rfl
      · exact (c2 i hi).2 (fun hb => hc ((hiff _).mp hb))
    · exact absurd h (by simp)

theorem copyChunk_ok (h1 : bbox.offset.length = bbox.shape.length)
    (h2 : m.chunkShape.length = bbox.shape.length)
    (h3 : chunk.gridPosition.length = bbox.shape.length) (hs : arr.shape = bbox.shape)
    (hlen : m.chunkShape.prod ≤ chunk.data.length) :
    ∃ arr', copyChunk m bbox chunk arr = .ok arr' := by
  have hck : (chunkOffset chunk.gridPosition m.chunkShape).length = bbox.shape.length := by
    simp [h2, h3]
  unfold copyChunk
  simp only
  rw [intersect_eq (show bbox.offset.length = (m.chunkBounds chunk.gridPosition).offset.length by
    rw [ArrayMetadata.chunkBounds, hck, h1])]
  simp only [Outcome.bind_ok, ArrayMetadata.chunkBounds]
  split
  · exact ⟨_, rfl⟩
  · rename_i hne
    obtain ⟨e1, e2⟩ := isect_sub (s := bbox.shape) (o := bbox.offset) (w := m.chunkShape)
      (k := chunkOffset chunk.gridPosition m.chunkShape) h1 h2 hck
    simp only [BBox.sub, e1, e2, Outcome.bind_ok, Outcome.pure_def, asNdarray, hlen, if_true]
    obtain ⟨f1, f2⟩ := relRanges_facts (s := bbox.shape) (o := bbox.offset) (w := m.chunkShape)
      (k := chunkOffset chunk.gridPosition m.chunkShape) h1 h2 hck
      (by simpa only [BBox.isEmpty, Bool.not_eq_true] using hne)
    obtain ⟨view, d, hv, hd⟩ := copy_isect_ok (dst := arr)
        (src := NdArr.ofMemory (El.default t) m.order m.chunkShape chunk.data)
        (s := bbox.shape) (o := bbox.offset) (w := m.chunkShape)
        (k := chunkOffset chunk.gridPosition m.chunkShape) h1 hck hs rfl f1 f2
    refine ⟨d, ?_⟩
    simp only [relRanges, chunkOffset] at hv hd
    simp only [chunkOffset]
    rw [hv, Outcome.bind_ok, hd]

end Copy

/-! ## The loop -/

section Loop

variable {env : Env} {h : Hier} {path : Str} {m : ArrayMetadata} {t : RsType} {bbox : BBox} {fs : Fs}

theorem readLoop_cons (pos : List Nat) (rest : List (List Nat)) (arr : NdArr (El t))
    (buf : Option (DataChunk t)) :
    readLoop env h path m t bbox (pos :: rest) arr buf fs =
      match look env h path m t fs pos with
      | .ok none => readLoop env h path m t bbox rest arr buf fs
      | .ok (some c) =>
        match copyChunk m bbox c arr with
        | .ok arr' => readLoop env h path m t bbox rest arr' (some c) fs
        | .err e => (.err e, fs)
        | .panic => (.panic, fs)
      | .err e => (.err e, fs)
      | .panic => (.panic, fs) := by
  simp only [readLoop, M.bind_apply, readCoord_eq]
  cases look env h path m t fs pos with
  | ok r =>
    cases r with
    | none => rfl
    | some c =>
      simp only [M.bind_apply, M.lift_apply]
      cases copyChunk m bbox c arr <;> rfl
  | err e => rfl
  | panic => rfl

/-- The caller's buffer does not influence the array or the outcome. -/
theorem readLoop_buf (coords : List (List Nat)) (arr : NdArr (El t))
    (b1 b2 : Option (DataChunk t)) :
    (readLoop env h path m t bbox coords arr b1 fs).1 >>= (fun r => .ok r.1)
      = (readLoop env h path m t bbox coords arr b2 fs).1 >>= (fun r => .ok r.1) := by
  induction coords generalizing arr b1 b2 with
  | nil => rfl
  | cons pos rest ih =>
    rw [readLoop_cons, readLoop_cons]
    cases look env h path m t fs pos with
    | ok r =>
      cases r with
      | none => exact ih arr b1 b2
      | some c =>
        cases copyChunk m bbox c arr <;> rfl
    | err e => rfl
    | panic => rfl

theorem readLoop_fs (coords : List (List Nat)) (arr : NdArr (El t)) (buf : Option (DataChunk t)) :
    (readLoop env h path m t bbox coords arr buf fs).2 = fs := by
  induction coords generalizing arr buf with
  | nil => rfl
  | cons pos rest ih =>
    rw [readLoop_cons]
    cases look env h path m t fs pos with
    | ok r =>
      cases r with
      | none => exact ih arr buf
      | some c =>
        simp only
        cases copyChunk m bbox c arr with
        | ok a => exact ih a _
        | err e => rfl
        | panic => rfl
    | err e => rfl
    | panic => rfl

theorem readLoop_spec (h1 : bbox.offset.length = bbox.shape.length)
    (h2 : m.chunkShape.length = bbox.shape.length) (hk : ∀ k ∈ m.chunkShape, k ≠ 0)
    (coords : List (List Nat)) (hc : ∀ c ∈ coords, c.length = bbox.shape.length)
    (arr : NdArr (El t)) (buf : Option (DataChunk t)) (hs : arr.shape = bbox.shape)
    {r : NdArr (El t) × Option (DataChunk t)}
    (hr : (readLoop env h path m t bbox coords arr buf fs).1 = .ok r) :
    r.1.shape = bbox.shape ∧ (∀ c ∈ coords, ∃ x, look env h path m t fs c = .ok x) ∧
    ∀ i, Inside bbox.shape i →
      (∀ c, chunkOf m.chunkShape (shift bbox.offset i) ∈ coords →
        look env h path m t fs (chunkOf m.chunkShape (shift bbox.offset i)) = .ok (some c) →
        c.data[linear m.order m.chunkShape (within m.chunkShape (shift bbox.offset i))]?
          = some (r.1.get i)) ∧
      ((chunkOf m.chunkShape (shift bbox.offset i) ∉ coords ∨
        look env h path m t fs (chunkOf m.chunkShape (shift bbox.offset i)) = .ok none) →
        r.1.get i = arr.get i) := by
  induction coords generalizing arr buf with
  | nil =>
    simp only [readLoop, M.pure_apply, Outcome.ok.injEq] at hr
    subst hr
    exact ⟨hs, by simp, fun i hi => ⟨by simp, fun _ => rfl⟩⟩
  | cons pos rest ih =>
    have hc' : ∀ c ∈ rest, c.length = bbox.shape.length := fun c hc1 => hc c (by simp [hc1])
    rw [readLoop_cons] at hr
    cases hlook : look env h path m t fs pos with
    | err e => rw [hlook] at hr; exact absurd hr (by simp)
    | panic => rw [hlook] at hr; exact absurd hr (by simp)
    | ok x =>
      rw [hlook] at hr
      cases x with
      | none =>
        obtain ⟨r1, r2, r3⟩ := ih hc' arr buf hs hr
        refine ⟨r1, ?_, fun i hi => ⟨fun c hm hl => ?_, fun hm => ?_⟩⟩
        · intro c hm
          rcases List.mem_cons.mp hm with rfl | hm
          · exact ⟨_, hlook⟩
          · exact r2 c hm
        · rcases List.mem_cons.mp hm with rfl | hm
          · rw [hlook] at hl; exact absurd hl (by simp)
          · exact (r3 i hi).1 c hm hl
        · refine (r3 i hi).2 ?_
          rcases hm with hm | hm
          · exact .inl (fun h => hm (by simp [h]))
          · exact .inr hm
      | some ch =>
        simp only at hr
        obtain ⟨_, hpos, _⟩ := look_some hlook
        cases hcopy : copyChunk m bbox ch arr with
        | err e => rw [hcopy] at hr; exact absurd hr (by simp)
        | panic => rw [hcopy] at hr; exact absurd hr (by simp)
        | ok arr1 =>
          rw [hcopy] at hr
          simp only at hr
          obtain ⟨s1, s2⟩ := copyChunk_spec h1 h2 (by rw [hpos]; exact hc pos (by simp)) hs hcopy
          obtain ⟨r1, r2, r3⟩ := ih hc' arr1 _ s1 hr
          refine ⟨r1, ?_, fun i hi => ?_⟩
          · intro c hm
            rcases List.mem_cons.mp hm with rfl | hm
            · exact ⟨_, hlook⟩
            · exact r2 c hm
          · have hpl : (shift bbox.offset i).length = m.chunkShape.length := by
              rw [shift_length] <;> have := Inside.length hi <;> omega
            have hcov : ∀ c, Covers m.chunkShape c (shift bbox.offset i) ↔
                chunkOf m.chunkShape (shift bbox.offset i) = c := fun c => by
              rw [covers_iff hk]; simp [hpl]
            have hcopy1 := s2 i hi
            rw [hcov, hpos] at hcopy1
            constructor
            · intro c hm hl
              by_cases hm' : chunkOf m.chunkShape (shift bbox.offset i) ∈ rest
              · exact (r3 i hi).1 c hm' hl
              · rcases List.mem_cons.mp hm with heq | hm
                · have e1 := (r3 i hi).2 (.inl hm')
                  have e2 := hcopy1.1 heq
                  rw [heq, hlook] at hl
                  simp only [Outcome.ok.injEq, Option.some.injEq] at hl
                  subst hl
                  rw [e1, ← e2, ← heq, rel_chunk]
                · exact absurd hm hm'
            · intro hm
              have hne : chunkOf m.chunkShape (shift bbox.offset i) ≠ pos := by
                rintro heq
                rcases hm with hm | hm
                · exact hm (by simp [heq])
                · rw [heq, hlook] at hm; exact absurd hm (by simp)
              rw [(r3 i hi).2 ?_, hcopy1.2 hne]
              rcases hm with hm | hm
              · exact .inl (fun h => hm (by simp [h]))
              · exact .inr hm

theorem readLoop_ok (h1 : bbox.offset.length = bbox.shape.length)
    (h2 : m.chunkShape.length = bbox.shape.length)
    (coords : List (List Nat)) (hc : ∀ c ∈ coords, c.length = bbox.shape.length)
    (arr : NdArr (El t)) (buf : Option (DataChunk t)) (hs : arr.shape = bbox.shape)
    (hl : ∀ c ∈ coords, look env h path m t fs c = .ok none ∨
      ∃ x, look env h path m t fs c = .ok (some x) ∧ m.chunkShape.prod ≤ x.data.length) :
    ∃ r, (readLoop env h path m t bbox coords arr buf fs).1 = .ok r := by
  induction coords generalizing arr buf with
  | nil => exact ⟨_, rfl⟩
  | cons pos rest ih =>
    have hc' : ∀ c ∈ rest, c.length = bbox.shape.length := fun c hc1 => hc c (by simp [hc1])
    have hl' := fun c (hc1 : c ∈ rest) => hl c (by simp [hc1])
    rw [readLoop_cons]
    rcases hl pos (by simp) with hlook | ⟨x, hlook, hlen⟩
    · rw [hlook]
      exact ih hc' arr buf hs hl'
    · rw [hlook]
      obtain ⟨_, hpos, _⟩ := look_some hlook
      obtain ⟨arr1, ha⟩ := copyChunk_ok (arr := arr) h1 h2 (by rw [hpos]; exact hc pos (by simp)) hs hlen
      obtain ⟨s1, _⟩ := copyChunk_spec h1 h2 (by rw [hpos]; exact hc pos (by simp)) hs ha
      simp only [ha]
      exact ih hc' arr1 _ s1 hl'

/-- The loop panics only if reading a chunk does. -/
theorem readLoop_no_panic (h1 : bbox.offset.length = bbox.shape.length)
    (h2 : m.chunkShape.length = bbox.shape.length)
    (hsmall : m.chunkShape.prod < 2 ^ 32)
    (coords : List (List Nat)) (hc : ∀ c ∈ coords, c.length = bbox.shape.length)
    (arr : NdArr (El t)) (buf : Option (DataChunk t)) (hs : arr.shape = bbox.shape)
    (hl : ∀ c ∈ coords, look env h path m t fs c ≠ .panic) :
    (readLoop env h path m t bbox coords arr buf fs).1 ≠ .panic := by
  induction coords generalizing arr buf with
  | nil => simp [readLoop]
  | cons pos rest ih =>
    have hc' : ∀ c ∈ rest, c.length = bbox.shape.length := fun c hc1 => hc c (by simp [hc1])
    have hl' := fun c (hc1 : c ∈ rest) => hl c (by simp [hc1])
    rw [readLoop_cons]
    cases hlook : look env h path m t fs pos with
    | err e => simp
    | panic => exact absurd hlook (hl pos (by simp))
    | ok x =>
      cases x with
      | none => exact ih hc' arr buf hs hl'
      | some c =>
        obtain ⟨_, hpos, hlen⟩ := look_some hlook
        rw [Nat.mod_eq_of_lt hsmall] at hlen
        obtain ⟨arr1, ha⟩ := copyChunk_ok (arr := arr) h1 h2
          (by rw [hpos]; exact hc pos (by simp)) hs (by omega)
        obtain ⟨s1, _⟩ := copyChunk_spec h1 h2 (by rw [hpos]; exact hc pos (by simp)) hs ha
        simp only [ha]
        exact ih hc' arr1 _ s1 hl'

end Loop

end Zarr
