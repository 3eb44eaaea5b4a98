import Verif.Props.Documents
import Verif.Props.Locations
import Verif.Props.Session
/-!
# New arrays: C83
-/

namespace Zarr

open Spec

/-! ## The specification -/

/-- The name of the data type of a Rust type on a machine with the given byte order. -/
def Spec.typeNameOf (native : Endian) : RsType → Str
  | .bool => str!"bool"
  | .u8 => str!"u1"
  | .i8 => str!"i1"
  | t =>
    (match native with
      | .little => '<'
      | .big => '>') ::
    (match t with
      | .u16 => str!"u2" | .u32 => str!"u4" | .u64 => str!"u8"
      | .i16 => str!"i2" | .i32 => str!"i4" | .i64 => str!"i8"
      | .f16 => str!"f2" | .f32 => str!"f4" | _ => str!"f8")

/-- The document of a new array; `tail` is the member for the compressor. -/
def Spec.newDocument (shape chunkShape : List Nat) (name : Str) (tail : JsonObject) : Json :=
  .obj ([(str!"shape", .arr (shape.map fun (n : Nat) => Json.int n)), (str!"data_type", .str name),
    (str!"chunk_grid", .obj [(str!"type", .str str!"regular"),
      (str!"chunk_shape", .arr (chunkShape.map fun (n : Nat) => Json.int n)), (str!"separator", .str str!"/")]),
    (str!"chunk_memory_layout", .str str!"F"), (str!"fill_value", .null), (str!"extensions", .arr []),
    (str!"attributes", .obj [])] ++ tail)

/-- The member for the compressor: none for no compression. -/
def Spec.CompressorMember (f : Features) (c : CompressionType) (tail : JsonObject) : Prop :=
  if c = .raw then tail = [] else ∃ j, tail = [(str!"compressor", j)] ∧ CodecDoc f j c

/-! ## Proofs -/

theorem typeNameOf_eq (native : Endian) (t : RsType) :
    (t.zarrType native).toJson = .ok (.str (typeNameOf native t)) := by
  cases native <;> cases t <;> decide

theorem new_faithful {f : Features} {fl : BitVec 64 → Bool} {shape chunkShape : List Nat} {native : Endian} {t : RsType}
    {comp : CompressionType} {m : ArrayMetadata}
    (hm : ArrayMetadata.new shape chunkShape (.core (t.zarrType native)) comp = .ok m)
    (h1 : ∀ n ∈ shape, n < 2 ^ 64) (h2 : ∀ n ∈ chunkShape, n < 2 ^ 32)
    (ht : native = .little ∨ (t ≠ .u8 ∧ t ≠ .i8)) (hc : comp.WellTyped) (he : comp.enabled f = true) :
    Faithful f fl m := by
  unfold ArrayMetadata.new at hm
  split at hm
  · simp only [Outcome.ok.injEq] at hm
    subst hm
    exact {
      shape := h1
      chunkShape := h2
      core := by
        intro d hd
        simp only [ExtensibleDataType.core.injEq] at hd
        subst hd
        unfold TypeFaithful
        cases native <;> cases t <;> simp_all [RsType.zarrType]
      fallback := by simp
      fill := by simp
      exts := by simp
      attrs := by simp [Json.canon, Json.canonObj]
      comp := ⟨hc, he⟩ }
  · simp at hm

theorem zarrType_kind (native : Endian) (t : RsType) : kindOf (t.zarrType native) = kindOfRs t := by
  cases t <;> rfl

/-- **C83.** (1) `new` panics exactly when the numbers of dimensions differ. (2) Otherwise the array has the given shape,
chunk shape, type and compressor, no attributes and no fill value, so the default of its type as the effective one.
(3) Creating it stores a document that says so: a regular grid with the separator `/`, column-major chunks and
the name of the type. (4) The chunk at each grid position is the file with the coordinates as components. (5) The metadata
read back is that of the array (on a big-endian machine not for one-byte integers, whose byte order
is not stored), and there are no attributes. (6) A chunk of the type that was written is read back. (7) Chunk and box accesses
with the type are among the calls of C81 and C82. -/
theorem C83 (env : Env) (hj : env.json.Lawful) (shape chunkShape : List Nat) (t : RsType) (comp : CompressionType)
    (h1 : ∀ n ∈ shape, n < 2 ^ 64) (h2 : ∀ n ∈ chunkShape, n < 2 ^ 32)
    (hc : comp.WellTyped) (he : comp.enabled env.features = true) :
    (shape.length ≠ chunkShape.length →
      ArrayMetadata.new shape chunkShape (.core (t.zarrType env.native)) comp = .panic) ∧
    (shape.length = chunkShape.length →
      ∃ m, ArrayMetadata.new shape chunkShape (.core (t.zarrType env.native)) comp = .ok m ∧
        (m.shape = shape ∧ m.chunkShape = chunkShape ∧ m.compressor = comp ∧ m.attributes = [] ∧
          m.fillValue = none ∧ m.extensions = [] ∧ ∃ x, effectiveFillValue env m t = .ok x ∧ x.toNat = 0) ∧
        (∀ (h : Hier) (path : Str) (fs fs' : Fs), fs.WF → Plain (segs h.base) → GoodSuffix h.entry → Plain (segs path) →
          createArray env h path m fs = (.ok (), fs') →
          ∃ tail, CompressorMember env.features comp tail ∧ arrayDoc h fs' path =
            some (env.json.print (newDocument shape chunkShape (typeNameOf env.native t) tail))) ∧
        (∀ (h : Hier) (path : Str) (pos : List Nat), h.loc (chunkKey path m pos) = segs h.base ++ [str!"data", str!"root"] ++ segs path ++
          match pos.map decimal with
          | [] => [str!"c"]
          | x :: xs => ('c' :: x) :: xs) ∧
        (∀ (h : Hier) (path : Str) (fs fs' : Fs), createArray env h path m fs = (.ok (), fs') →
          (env.native = .little ∨ (t ≠ .u8 ∧ t ≠ .i8) → getArrayMetadata env h path fs' = (.ok m, fs')) ∧
          (fs.WF → Plain (segs h.base) → GoodSuffix h.entry → Plain (segs path) →
            listAttributes env h path fs' = (.ok [], fs'))) ∧
        (∀ (h : Hier) (path : Str) (c : DataChunk t) (fs fs' : Fs), (codecOf env.codecs comp).Lawful → c.data.length = chunkShape.prod →
          m.inBounds c.gridPosition = .ok true → writeChunk env h path m c fs = (.ok (), fs') →
          readChunk env h path m t c.gridPosition fs' = (.ok (some c), fs')) ∧
        GoodSep m.separator ∧
        (∀ pos : List Nat, m.inBounds pos = .ok true → ChunkCallOk m t pos) ∧
        (∀ b : BBox, shape ≠ [] → (∀ k ∈ chunkShape, k ≠ 0) → chunkShape.prod < 2 ^ 32 →
          b.offset.length = shape.length → b.shape.length = shape.length → BoxMeetsArray m b →
          BoxOk env m t (El.default t) b)) := by
  refine ⟨fun hne => by unfold ArrayMetadata.new; rw [if_neg hne], fun hlen => ?_⟩
  have hnew : ∀ n, ∃ m, ArrayMetadata.new shape chunkShape (.core (t.zarrType n)) comp = .ok m ∧
      m.shape = shape ∧ m.chunkShape = chunkShape ∧ m.compressor = comp ∧ m.attributes = [] ∧
      m.fillValue = none ∧ m.extensions = [] ∧ m.dataType = .core (t.zarrType n) ∧ m.gridType = str!"regular" ∧
      m.separator = str!"/" ∧ m.order = .columnMajor := by
    intro n
    unfold ArrayMetadata.new
    rw [if_pos hlen]
    exact ⟨_, rfl, rfl, rfl, rfl, rfl, rfl, rfl, rfl, rfl, rfl, rfl⟩
  have hcomp := (C50_partial env.features).1 comp hc he
  have htail : CompressorMember env.features comp (if comp.isDefault then [] else [(str!"compressor", comp.toJson)]) := by
    unfold CompressorMember
    cases comp with
    | raw => simp [CompressionType.isDefault, CompressionType.default]
    | _ => simpa [CompressionType.isDefault, CompressionType.default] using CompressionType.fromJson_eq_ok.mp hcomp
  generalize et : (if comp.isDefault then [] else [(str!"compressor", comp.toJson)] : JsonObject) = tail at htail
  have hjson : ∀ n m, ArrayMetadata.new shape chunkShape (.core (t.zarrType n)) comp = .ok m →
      m.toJson = .ok (newDocument shape chunkShape (typeNameOf n t) tail) := by
    intro n m hm
    obtain ⟨m', hm', e1, e2, e3, e4, e5, e6, e7, e8, e9, e10⟩ := hnew n
    rw [hm'] at hm
    simp only [Outcome.ok.injEq] at hm
    subst hm
    simp only [ArrayMetadata.toJson, e1, e2, e3, e4, e5, e6, e7, e8, e9, e10, ExtensibleDataType.toJson, typeNameOf_eq,
      Outcome.bind_ok, Outcome.pure_def, newDocument, Order.toJson, Option.getD_none, List.map_nil, ← et]
  obtain ⟨m, hm, e1, e2, e3, e4, e5, e6, e7, e8, e9, e10⟩ := hnew env.native
  have hcan : (newDocument shape chunkShape (typeNameOf env.native t) tail).canon env.json.floats 127 = true := by
    obtain ⟨ml, hml, _⟩ := hnew .little
    by_cases ht : env.native = .little ∨ (t ≠ .u8 ∧ t ≠ .i8)
    · obtain ⟨kvs, k1, k2, _⟩ := ArrayMetadata.roundTrip (new_faithful (fl := env.json.floats) hm h1 h2 ht hc he)
      rw [hjson _ _ hm] at k1
      simp only [Outcome.ok.injEq] at k1
      rw [k1]; exact k2
    · obtain ⟨kvs, k1, k2, _⟩ := ArrayMetadata.roundTrip (new_faithful (fl := env.json.floats) hml h1 h2 (.inl rfl) hc he)
      rw [hjson _ _ hml] at k1
      simp only [Outcome.ok.injEq] at k1
      have : typeNameOf env.native t = typeNameOf .little t := by
        cases t <;> simp at ht <;> rfl
      rw [this, k1]; exact k2
  have hfill : effectiveFillValue env m t = .ok (El.default t) := by
    unfold effectiveFillValue
    rw [e5]
  have hdoc : ∀ (h : Hier) (path : Str) (fs fs' : Fs), fs.WF → Plain (segs h.base) → GoodSuffix h.entry → Plain (segs path) →
      createArray env h path m fs = (.ok (), fs') →
      fs'.WF ∧ arrayDoc h fs' path =
        some (env.json.print (newDocument shape chunkShape (typeNameOf env.native t) tail)) := by
    intro h path fs fs' hwf hb hs hp hcr
    have hpl : Plain (h.loc (arrayMetadataKey h.entry path)) := by
      rw [loc_arrayKey hs hp]; exact plain_docLoc hb hp (by simp)
    rw [createArray_eq hwf hb hs hp] at hcr
    split at hcr
    · simp at hcr
    split at hcr
    · simp at hcr
    have hget := storeGet_of_storeSet hcr
    obtain ⟨hwf', _⟩ := storeSet_frame hwf hpl hcr
    rw [storeGet_array hwf' hb hs hp] at hget
    refine ⟨hwf', ?_⟩
    have : (arrayMetadataText env m).1 = env.json.print (newDocument shape chunkShape (typeNameOf env.native t) tail) := by
      simp [arrayMetadataText, hjson _ _ hm]
    rw [this] at hget
    simpa using hget
  refine ⟨m, hm, ?_, ?_, ?_, ?_, ?_, ?_, ?_, ?_⟩
  · exact ⟨e1, e2, e3, e4, e5, e6, El.default t, hfill, by cases t <;> rfl⟩
  · intro h path fs fs' hwf hb hs hp hcr
    exact ⟨tail, htail, (hdoc h path fs fs' hwf hb hs hp hcr).2⟩
  · intro h path pos
    rw [Hier.loc, segs_chunkKey, e9, chunkTail_eq (.inl rfl), chunkName, if_pos rfl]
    cases pos <;> simp
  · intro h path fs fs' hcr
    refine ⟨fun ht => C31_partial hj (new_faithful hm h1 h2 ht hc he) hcr, fun hwf hb hs hp => ?_⟩
    obtain ⟨hwf', hd⟩ := hdoc h path fs fs' hwf hb hs hp hcr
    have hparse := hj.parse_print _ hcan
    have hatt : docAttributes (newDocument shape chunkShape (typeNameOf env.native t) tail) = .ok [] := rfl
    simp [Zarr.listAttributes, nodeMetadataKey, storeExists_array hwf' hb hs hp, storeGet_array hwf' hb hs hp, hd,
      hparse, Outcome.ofOption, hatt]
  · intro h path c fs fs' hcod hl hin hw
    exact C01 env h path m c fs fs' (by rw [e3]; exact hcod) (by rw [e2]; exact hl) hin hw
  · rw [e9]; exact .inl rfl
  · intro pos hin
    exact ⟨hin, t.zarrType env.native, by rw [e7]; rfl, zarrType_kind _ _⟩
  · intro b hne hk hsm ho hs hmeet
    exact ⟨⟨t.zarrType env.native, by rw [e7]; rfl, zarrType_kind _ _⟩, hfill, by rw [e1, e2]; exact hlen,
      by rw [e1]; exact hne, by rw [e2]; exact hk, by rw [e2]; exact hsm, by rw [e1]; exact ho, by rw [e1]; exact hs, hmeet⟩

/-! ## A concrete case -/

/-- A new array of five by four numbers in chunks of two by three. -/
def Demo.newArr : ArrayMetadata :=
  match ArrayMetadata.new [5, 4] [2, 3] (.core (RsType.zarrType .little .i32)) .raw with
  | .ok m => m
  | _ => Demo.arr

/-- Create the array, write a box that lies in four chunks, read a bigger one. -/
def Demo.newSession : List SCall :=
  [.call (.call (.createArray Demo.path Demo.newArr)),
   .call (.writeBox Demo.path .i32 [1, 2] ⟨[2, 2], fun i => BitVec.ofNat 32 (10 * i.headD 0 + i.getLastD 0 + 1)⟩),
   .open, .call (.readBox Demo.path .i32 ⟨[1, 1], [3, 3]⟩), .call (.call (.readChunk Demo.path .i32 [0, 0]))]

/-- The array meets the hypotheses of C83, and with it those of C82; the chunk is column-major. -/
example : ∃ fs', openOrCreate Demo.envV str!"/h" Demo.emptyFs = (.ok Demo.hier, fs') ∧
    sResults Demo.envV (fun _ => Demo.newArr) Demo.newSession Demo.hier fs' =
    [.result (.plain (.unit (.ok ()))), .result (.plain (.unit (.ok ()))), .handle (.ok Demo.hier),
     .result (.box (.ok ([3, 3], ⟨.i32, ([0, 1, 2, 0, 11, 12, 0, 0, 0] : List (BitVec 32))⟩))),
     .result (.plain (.data (.ok (some ⟨.i32, ([0, 0, 0, 0, 0, 1] : List (BitVec 32))⟩))))] := by
  obtain ⟨m, hm, _, _, _, _, _, hsep, hchunk, hbox⟩ := (C83 Demo.envV jsonText_lawful [5, 4] [2, 3] .i32 .raw
    (by decide) (by decide) trivial rfl).2 rfl
  have e : Demo.newArr = m := by simp only [Demo.newArr]; rw [show RsType.zarrType .little = RsType.zarrType Demo.envV.native from rfl, hm]
  have hp : OrdinaryPath Demo.hier Demo.path := Demo.ordinaryPath (by decide)
  have hok : ∀ c ∈ Demo.newSession, c.Ok Demo.envV Demo.hier (fun _ => Demo.newArr) Demo.fills := by
    simp only [Demo.newSession, List.forall_mem_cons, SCall.Ok, BCall.Ok, HCall.Ok]
    rw [e]
    refine ⟨⟨hp, new_faithful hm (by decide) (by decide) (.inl rfl) trivial rfl⟩,
      ⟨hp, hbox ⟨[1, 2], [2, 2]⟩ (by decide) (by decide) (by decide) rfl rfl ?_, ?_, ?_⟩, trivial,
      ⟨hp, hbox ⟨[1, 1], [3, 3]⟩ (by decide) (by decide) (by decide) rfl rfl ?_⟩,
      ⟨hp, hchunk [0, 0] ?_⟩, by simp⟩
    · rw [← e]; exact ⟨[1, 2], by simp [Inside, Demo.newArr, ArrayMetadata.new], by simp [InBox]⟩
    · rw [← e]; exact rawCodec_lawful
    · rw [← e]; exact fun _ => rfl
    · rw [← e]; exact ⟨[1, 2], by simp [Inside, Demo.newArr, ArrayMetadata.new], by simp [InBox]⟩
    · rw [← e]; decide
  obtain ⟨fs', h1, h2⟩ := (C82 Demo.envV (fun _ => Demo.newArr) Demo.fills jsonText_lawful
    (fun _ => by rw [e]; exact hsep)).2.2
    str!"/h" Demo.newSession Demo.emptyFs Demo.emptyFs_wf (by decide) (compatible_iff.mpr (by decide)) Demo.fresh (by decide) hok
  exact ⟨fs', h1, h2.trans rfl⟩

example : ArrayMetadata.new [5, 4] [2] (.core .bool) .raw = .panic := by decide

end Zarr
