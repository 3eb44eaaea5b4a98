import Verif.Model.Ndarray
import Verif.Model.JsonText
/-!
# The repository's own tests, run on the model

Every test of `/repo` whose outcome the model determines is written here as a program on the model and
evaluated by the kernel. These are tests of the model against the behaviour its authors expect of the code;
no property rests on them. Differences from the originals are said at each test: random data is replaced by
fixed data, the largest arrays are smaller, a symbolic link is a directory, and the compression libraries
are tables of the streams in the tests. -/

namespace Zarr.Conformance

/-! ## Test programs -/

/-- `assert!`. -/
def check (b : Bool) : M Fs Unit := if b then pure () else M.lift .panic

/-- `assert!(call.is_err())`. -/
def isErr {α : Type} (x : M Fs α) : M Fs Unit := fun fs =>
  match x fs with
  | (.err _, fs') => (.ok (), fs')
  | (_, fs') => (.panic, fs')

/-- The bytes written in hexadecimal digits. -/
def hexBytes : Str → Bytes
  | a :: b :: r => byte ((hexVal a).getD 0 * 16 + (hexVal b).getD 0) :: hexBytes r
  | _ => []

/-- A little-endian machine, all features, a debug build, and version requirements that the tests meet:
`3.0` matches, everything else does not parse. -/
def env : Env where
  json := jsonText
  codecs := fun _ => rawCodec
  native := .little
  features := ⟨true, true, true, true, true⟩
  versionReq := fun s => if s = str!"3.0" then some true else none
  floatFill := fun _ _ => none
  overflowChecks := true

/-- The directory of the tests, which exists and is empty. -/
def base : Str := str!"/tmp/t"

/-- The filesystem at the beginning of a test. -/
def fs0 : Fs := ⟨[([], .dir), ([str!"tmp"], .dir), ([str!"tmp", str!"t"], .dir)]⟩

/-- `temp_new_rw` (filesystem.rs:332-338). -/
def create : M Fs Hier := openOrCreate env base

/-- `open_reader` (filesystem.rs:340-342). -/
def openReader (h : Hier) : M Fs Hier := openHier env h.base

/-- The test passes. -/
def Passes (t : M Fs Unit) : Prop := (t fs0).1 = .ok ()

instance (t : M Fs Unit) : Decidable (Passes t) := inferInstanceAs (Decidable (_ = _))

/-- The elements `0, 1, …`. -/
def upTo (t : RsType) (n : Nat) : List (El t) := (List.range n).map (El.ofNat t)

/-- `ArrayMetadata::new` where the dimensions agree (lib.rs:405-430). -/
def metaOf (shape chunkShape : List Nat) (d : DataType) (c : CompressionType) : ArrayMetadata :=
  match ArrayMetadata.new shape chunkShape (.core d) c with
  | .ok m => m
  | _ => ⟨[], .core .bool, [], [], [], .rowMajor, none, [], [], .raw⟩

/-- The metadata used in most tests: 10 by 10 by 10 `i32` in chunks of 5 by 5 by 5, raw. -/
def meta10 : ArrayMetadata := metaOf [10, 10, 10] [5, 5, 5] (RsType.zarrType .little .i32) .raw

example : ArrayMetadata.new [10, 10, 10] [5, 5, 5] (.core (.int .B4 .little)) .raw = .ok meta10 := by decide

/-! ## `src/tests.rs` -/

/-- The attributes of the first test. -/
def exampleAttributes : JsonObject :=
  [(str!"foo", .int 42), (str!"bar", .str str!"apples"), (str!"baz", .arr [.int 1, .int 2, .int 3, .int 4])]

/-- `array_metadata_deserialization` (tests.rs:16-93): with a compressor and without. -/
def exampleJson (compressor : Str) : Bytes := utf8 (str!"
        {
            \"shape\": [10000, 1000],
            \"data_type\": \"<f8\",
            \"chunk_grid\": {
                \"type\": \"regular\",
                \"chunk_shape\": [1000, 100],
                \"separator\" : \"/\"
            },
            \"chunk_memory_layout\": \"C\"," ++ compressor ++ str!"
            \"fill_value\": \"NaN\",
            \"extensions\": [],
            \"attributes\": {
                \"foo\": 42,
                \"bar\": \"apples\",
                \"baz\": [1, 2, 3, 4]
            }
        }
        ")

/-- The metadata that the test expects. -/
def expectedMetadata (c : CompressionType) : ArrayMetadata where
  shape := [10000, 1000]
  dataType := .core (.float .B8 .little)
  gridType := str!"regular"
  chunkShape := [1000, 100]
  separator := str!"/"
  order := .rowMajor
  fillValue := some (.str str!"NaN")
  extensions := []
  attributes := exampleAttributes
  compressor := c

set_option maxRecDepth 100000 in
example : parseArrayMetadata env (exampleJson str!"
            \"compressor\": {
                \"codec\": \"https://purl.org/zarr/spec/codec/gzip/1.0\",
                \"configuration\": {
                    \"level\": 1
                }
            },") = .ok (expectedMetadata (.gzip 1)) := by decide +kernel

set_option maxRecDepth 100000 in
example : parseArrayMetadata env (exampleJson str!"") = .ok (expectedMetadata .raw) := by decide +kernel

/-- `doc_spec_array_metadata` (tests.rs:117-127). -/
def docMetadata : ArrayMetadata := metaOf [5, 6, 7] [1, 2, 3] (.int .B2 .big) .raw

/-- `DOC_SPEC_CHUNK_DATA` (tests.rs:95). -/
def docData : List (El .i16) := [1, 2, 3, 4, 5, 6].map (El.ofNat .i16)

/-- `TEST_CHUNK_I16_RAW` (raw.rs:33-45). -/
def docBytes : Bytes := hexBytes str!"000100020003000400050006"

/-- `test_read_doc_spec_chunk` (tests.rs:129-142, raw.rs:48-53). -/
example : readChunkBytes env.codecs env.native docMetadata .i16 [0, 0, 0] docBytes = .ok ⟨[0, 0, 0], docData⟩ := by
  decide +kernel

/-- `test_write_doc_spec_chunk` (tests.rs:144-158, raw.rs:56-61). -/
example : writeChunkBytes env.codecs env.native docMetadata (⟨[0, 0, 0], docData⟩ : DataChunk .i16)
    = (docBytes, .ok ()) := by decide +kernel

/-- `test_chunk_compression_rw` (tests.rs:160-190). -/
example : readChunkBytes env.codecs env.native meta10 .i32 [0, 0, 0]
    (writeChunkBytes env.codecs env.native meta10 (⟨[0, 0, 0], upTo .i32 125⟩ : DataChunk .i32)).1
      = .ok ⟨[0, 0, 0], upTo .i32 125⟩ := by decide +kernel

/-- `test_varlength_chunk_rw` (tests.rs:192-221): a short chunk is refused, and what was written of it
(nothing) cannot be read. -/
example : (writeChunkBytes env.codecs env.native meta10 (⟨[0, 0, 0], upTo .i32 100⟩ : DataChunk .i32)).2.isOk = false ∧
    (readChunkBytes env.codecs env.native meta10 .i32 [0, 0, 0]
      (writeChunkBytes env.codecs env.native meta10 (⟨[0, 0, 0], upTo .i32 100⟩ : DataChunk .i32)).1).isOk = false := by
  decide +kernel

/-- `create_backend` (tests.rs:223-240). -/
def createBackend : M Fs Unit := do
  let h ← create
  createGroup env h []
  setAttribute env h [] str!"foo" (.str str!"bar")
  let read ← openReader h
  let v ← M.lift (getVersion env read.entry)
  check v
  let a ← listAttributes env read []
  check (objGet a str!"foo" = some (.str str!"bar"))

set_option maxRecDepth 100000 in
example : Passes createBackend := by decide +kernel

/-- `create_array` (tests.rs:242-258). -/
def createArrayTest : M Fs Unit := do
  let h ← create
  createArray env h str!"foo/bar" meta10
  let read ← openReader h
  let m ← getArrayMetadata env read str!"foo/bar"
  check (m = meta10)

set_option maxRecDepth 100000 in
example : Passes createArrayTest := by decide +kernel

/-- `absolute_relative_paths` (tests.rs:260-287). -/
def absoluteRelativePaths : M Fs Unit := do
  let h ← create
  createArray env h str!"foo/bar" meta10
  let read ← openReader h
  let m ← getArrayMetadata env read str!"foo/bar"
  check (m = meta10)
  let e ← nodeExists read str!"/foo/bar"
  check e
  let m ← getArrayMetadata env read str!"/foo/bar"
  check (m = meta10)
  let e ← arrayExists env read str!"/foo/bar"
  check e
  let e ← nodeExists read str!"/foo//foo/bar"
  check !e
  let e ← nodeExists read str!"/foo//bar"
  check e
  let m ← getArrayMetadata env read str!"/foo//bar"
  check (m = meta10)
  let e ← arrayExists env read str!"/foo//bar"
  check e

set_option maxRecDepth 100000 in
example : Passes absoluteRelativePaths := by decide +kernel

/-- Objects with the same members (`serde_json::Map` compares members, not their order). -/
def sameObj (a b : JsonObject) : Bool :=
  a.length == b.length && a.all fun kv => objGet b kv.1 = some kv.2

/-- `attributes_rw` (tests.rs:289-381). -/
def attributesRw : M Fs Unit := do
  let h ← create
  let group := str!"foo/bar"
  createGroup env h group
  let a ← listAttributes env h group
  check (sameObj a [])
  isErr (listAttributes env h str!"foo")
  let attrs1 : JsonObject := [(str!"foo", .obj [(str!"bar", .int 42)]), (str!"baz", .arr [.int 1, .int 2, .int 3])]
  setAttributes env h group attrs1
  let a ← listAttributes env h group
  check (sameObj a attrs1)
  setAttributes env h group [(str!"baz", .arr [.int 4, .int 5, .int 6])]
  let a ← listAttributes env h group
  check (sameObj a [(str!"foo", .obj [(str!"bar", .int 42)]), (str!"baz", .arr [.int 4, .int 5, .int 6])])
  setAttributes env h group [(str!"foo", .obj [(str!"moo", .int 7)])]
  let a ← listAttributes env h group
  check (sameObj a [(str!"foo", .obj [(str!"moo", .int 7)]), (str!"baz", .arr [.int 4, .int 5, .int 6])])
  let attrs3 : JsonObject := [(str!"foo", .null), (str!"baz", .null)]
  setAttributes env h group attrs3
  let a ← listAttributes env h group
  check (sameObj a attrs3)
  createArray env h str!"baz" meta10
  let a ← listAttributes env h str!"baz"
  check (sameObj a [])
  setAttributes env h str!"baz" attrs1
  let a ← listAttributes env h str!"baz"
  check (sameObj a attrs1)

set_option maxRecDepth 100000 in
example : Passes attributesRw := by decide +kernel

/-- `create_chunk_rw` (tests.rs:383-421). -/
def createChunkRw : M Fs Unit := do
  let h ← create
  createArray env h str!"foo/bar" meta10
  writeChunk env h str!"foo/bar" meta10 (⟨[0, 0, 0], upTo .i32 125⟩ : DataChunk .i32)
  let read ← openReader h
  let c ← readChunk env read str!"foo/bar" meta10 .i32 [0, 0, 0]
  check (c.map (·.data) = some (upTo .i32 125))
  let c ← readChunk env read str!"foo/bar" meta10 .i32 [0, 0, 1]
  check c.isNone
  isErr (writeChunk env h str!"foo/bar" meta10 (⟨[0, 0, 0], upTo .i32 10⟩ : DataChunk .i32))

set_option maxRecDepth 100000 in
example : Passes createChunkRw := by decide +kernel

/-- `delete_chunk` (tests.rs:423-456). -/
def deleteChunkTest : M Fs Unit := do
  let h ← create
  let m := metaOf [10, 100, 100] [5, 5, 5] (RsType.zarrType .little .i32) .raw
  createArray env h str!"foo/bar" m
  writeChunk env h str!"foo/bar" m (⟨[1, 2, 3], upTo .i32 125⟩ : DataChunk .i32)
  let c ← readChunk env h str!"foo/bar" m .i32 [1, 2, 3]
  check c.isSome
  let b ← deleteChunk h str!"foo/bar" m [1, 2, 3]
  check b
  let b ← deleteChunk h str!"foo/bar" m [1, 2, 3]
  check b
  let b ← deleteChunk h str!"foo/bar" m [1, 2, 4]
  check b
  let c ← readChunk env h str!"foo/bar" m .i32 [1, 2, 3]
  check c.isNone

set_option maxRecDepth 100000 in
example : Passes deleteChunkTest := by decide +kernel

/-! ## `src/store/filesystem.rs` -/

/-- `reject_exterior_paths` (filesystem.rs:351-369). Paths are compared by their components, as `PathBuf` is. -/
def rejectExteriorPaths : M Fs Unit := do
  let h ← create
  let path (k : Str) : M Fs (List Str) := do
    let p ← M.lift (getPath h.base k)
    pure (segs p)
  let root ← path []
  let p ← path str!"/"
  check (p = root)
  let p ← path str!"/foo/bar"
  let q ← path str!"foo/bar"
  check (p = q)
  let p ← path str!"//"
  check (p = root)
  isErr (path str!"/..")
  isErr (path str!"..")
  let _ ← path str!"foo/bar/baz/../../.."
  isErr (path str!"foo/bar/baz/../../../..")

set_option maxRecDepth 100000 in
example : Passes rejectExteriorPaths := by decide +kernel

/-- `list_symlinked_arrays` (filesystem.rs:387-417), with a directory for the symbolic link. -/
def listSymlinkedArrays : M Fs Unit := do
  let h ← create
  Fs.mkdirAll (segs str!"/tmp/t/meta/root/linked_array")
  let l ← listNodes env h []
  check (l = [str!"linked_array"])
  createArray env h str!"linked_array" meta10
  let e ← arrayExists env h str!"linked_array"
  check e

set_option maxRecDepth 100000 in
example : Passes listSymlinkedArrays := by decide +kernel

/-- `test_get_chunk_uri` (filesystem.rs:420-441). -/
def getChunkUriTest : M Fs Unit := do
  let h ← create
  createArray env h str!"/foo/bar" meta10
  let u ← getChunkUri h str!"/foo/bar" meta10 [1, 2, 3]
  check (u = str!"file://" ++ base ++ str!"/data/root/foo/bar/c1/2/3")

set_option maxRecDepth 100000 in
example : Passes getChunkUriTest := by decide +kernel

/-- `short_chunk_truncation` (filesystem.rs:444-494). -/
def shortChunkTruncation : M Fs Unit := do
  let h ← create
  createArray env h str!"foo/bar" meta10
  writeChunk env h str!"foo/bar" meta10 (⟨[0, 0, 0], upTo .i32 125⟩ : DataChunk .i32)
  let read ← openReader h
  let c ← readChunk env read str!"foo/bar" meta10 .i32 [0, 0, 0]
  check (c.map (·.data) = some (upTo .i32 125))
  let c ← readChunk env read str!"foo/bar" meta10 .i32 [0, 0, 1]
  check c.isNone
  let m := { meta10 with chunkShape := [5, 2, 1] }
  writeChunk env h str!"foo/bar" m (⟨[0, 0, 0], upTo .i32 10⟩ : DataChunk .i32)
  let b ← M.read fun fs => fs.readFile (segs str!"/tmp/t/data/root/foo/bar/c0/0/0")
  check (b.length = 10 * 4)

set_option maxRecDepth 100000 in
example : Passes shortChunkTruncation := by decide +kernel

/-! ## `src/data_type.rs`, `src/ndarray.rs` and documentation tests -/

/-- `test_all_data_type_reflections` (data_type.rs:502-524), the types with chunk I/O. -/
example : [RsType.bool, .u8, .u16, .u32, .u64, .i8, .i16, .i32, .i64, .f16, .f32, .f64].all
    fun t => (RsType.zarrType .little t).sizeOf = t.size := by decide +kernel

/-- The same test for `[u8; 1]` to `[u8; 4]`, whose types are raw with 8 to 32 bits. -/
example : [1, 2, 3, 4].all fun n => (DataType.raw (8 * n)).sizeOf = n := by decide +kernel

/-- `test_array_metadata_coord_iter` (ndarray.rs:540-557). -/
example : ((metaOf [1, 4, 5] [1, 2, 3] (RsType.zarrType .little .i16) .default).coordIter).bind
    (fun it => .ok it.rest) = .ok [[0, 0, 0], [0, 0, 1], [0, 1, 0], [0, 1, 1]] := by decide +kernel

/-- The text of a JSON document in the documentation, parsed. -/
def parsed (s : Str) : Outcome Json := Outcome.ofOption .json (jsonText.parse (utf8 s))

set_option maxRecDepth 100000 in
/-- `ExtensionMetadata` (lib.rs:129-142). -/
example : (parsed str!"
     {
        \"extension\": \"http://example.org/zarr/extension/foo\",
        \"must_understand\": false,
        \"configuration\": {
            \"foo\": \"bar\"
        }
     }").bind ExtensionMetadata.fromJson
    = .ok ⟨str!"http://example.org/zarr/extension/foo", false, some [(str!"foo", .str str!"bar")]⟩ := by
  decide +kernel

set_option maxRecDepth 100000 in
/-- `ExtensionMetadata` (lib.rs:144-154). -/
example : (parsed str!"
     {
        \"extension\": \"http://example.org/zarr/extension/foo\",
        \"must_understand\": false
     }").bind ExtensionMetadata.fromJson
    = .ok ⟨str!"http://example.org/zarr/extension/foo", false, none⟩ := by decide +kernel

/-- The metadata of the next two documentation tests. -/
def meta50 : ArrayMetadata := metaOf [50, 40, 30] [11, 10, 10] (RsType.zarrType .little .i8) .default

/-- `get_num_chunks` (lib.rs:492-502). -/
example : meta50.numChunks = .ok 60 := by decide +kernel

/-- `in_bounds` (lib.rs:508-519). -/
example : meta50.inBounds [4, 3, 2] = .ok true ∧ meta50.inBounds [5, 3, 2] = .ok false := by decide +kernel

/-- `DataType` (data_type.rs:105-115). -/
example : (parsed str!"\"<f8\"").bind DataType.fromJson = .ok (.float .B8 .little) ∧
    (parsed str!"\">u4\"").bind DataType.fromJson = .ok (.uint .B4 .big) ∧
    (parsed str!"\"r24\"").bind DataType.fromJson = .ok (.raw 24) := by decide +kernel

set_option maxRecDepth 100000 in
/-- `ExtensibleDataType` (data_type.rs:255-281). -/
example : (parsed str!"\"<f8\"").bind ExtensibleDataType.fromJson = .ok (.core (.float .B8 .little)) ∧
    (parsed str!"
     {
        \"extension\": \"https://purl.org/zarr/spec/protocol/extensions/datetime-dtypes/1.0\",
        \"type\": \"<M8[ns]\",
        \"fallback\": \"<i8\"
     }").bind ExtensibleDataType.fromJson
    = .ok (.extended str!"https://purl.org/zarr/spec/protocol/extensions/datetime-dtypes/1.0" str!"<M8[ns]"
        (some (.int .B8 .little))) := by decide +kernel

/-- `BoundingBox::intersect` (ndarray.rs:63-71). -/
example : BBox.intersect ⟨[0, 0], [5, 8]⟩ ⟨[3, 3], [5, 3]⟩ = .ok ⟨[3, 3], [2, 3]⟩ := by decide +kernel

/-- `BoundingBox::union` (ndarray.rs:87-95). -/
example : BBox.union ⟨[0, 0], [5, 8]⟩ ⟨[3, 3], [5, 3]⟩ = .ok ⟨[0, 0], [8, 8]⟩ := by decide +kernel

/-- `get_chunk_key` (storage.rs:88-108). -/
example : chunkKey str!"/foo/baz" meta50 [0, 0, 0] = str!"/data/root/foo/baz/c0/0/0" ∧
    chunkKey str!"/foo/baz" meta50 [1, 2, 3] = str!"/data/root/foo/baz/c1/2/3" ∧
    chunkKey str!"/foo/baz" (metaOf [] [] (RsType.zarrType .little .i8) .default) []
      = str!"/data/root/foo/baz/c" := by decide +kernel

/-! ## `tests/integration_test.rs` -/

/-- `test_read_write` (integration_test.rs:10-55), with fixed data. -/
def readWrite (h : Hier) (t : RsType) (dim : Nat) : M Fs Unit := do
  let m := metaOf ((List.range dim).map fun d => (d + 1) * 100)
    ((List.range dim).reverse.map fun d => (d + 1) * 5) (RsType.zarrType .little t) .raw
  let data := (List.range m.chunkNumElements).map fun i => El.ofNat t (i * 40503)
  let path := str!"test/array/group"
  let pos := List.replicate dim 0
  createArray env h path m
  writeChunk env h path m (⟨pos, data⟩ : DataChunk t)
  let c ← readChunk env h path m t pos
  check (c.map (·.data) = some data)
  let r ← readChunkInto env h path m t pos ⟨pos, []⟩
  check (r.1 && r.2.data = data)
  remove h path

/-- `test_all_types` and `test_zarr_filesystem_dim` (integration_test.rs:57-87). -/
def allTypes (dim : Nat) : M Fs Unit := do
  let h ← create
  readWrite h .bool dim
  readWrite h .u8 dim
  readWrite h .u16 dim
  readWrite h .u32 dim
  readWrite h .u64 dim
  readWrite h .i8 dim
  readWrite h .i16 dim
  readWrite h .i32 dim
  readWrite h .i64 dim
  readWrite h .f16 dim
  readWrite h .f32 dim
  readWrite h .f64 dim

set_option maxRecDepth 100000 in
/-- One dimension (the original goes up to five). -/
example : Passes (allTypes 1) := by decide +kernel

set_option maxRecDepth 100000 in
/-- Two dimensions. -/
example : Passes (allTypes 2) := by decide +kernel

/-! ## `tests/ndarray.rs` -/

/-- `test_read_ndarray` (tests/ndarray.rs:14-102), with 4 by 3 by 2 chunks instead of 10 by 10 by 10 and the
box fitted to them. -/
def readNdarrayTest : M Fs Unit := do
  let h ← create
  let m := metaOf [3, 300, 200, 100] [3, 4, 2, 1] (RsType.zarrType .little .i32) .default
  let path := str!"test/array/group"
  createArray env h path m
  (List.range 2).forM fun k => (List.range 3).forM fun j => (List.range 4).forM fun i => do
    let data := (List.range 1).flatMap fun zo => (List.range 2).flatMap fun yo => (List.range 4).flatMap fun xo =>
      [1000 + 4 * i + xo, 2000 + 2 * j + yo, 3000 + k + zo]
    writeChunk env h path m (⟨[0, i, j, k], data.map (El.ofNat .i32)⟩ : DataChunk .i32)
  let a ← readNdarray env h path m .i32 ⟨[0, 5, 1, 1], [3, 9, 4, 1]⟩
  check (a.shape = [3, 9, 4, 1])
  (indices [9, 4, 1]).forM fun
    | [x, y, z] => do
      check (a.get [0, x, y, z] = El.ofNat .i32 (1005 + x))
      check (a.get [1, x, y, z] = El.ofNat .i32 (2001 + y))
      check (a.get [2, x, y, z] = El.ofNat .i32 (3001 + z))
    | _ => check false

set_option maxRecDepth 100000 in
example : Passes readNdarrayTest := by decide +kernel

/-- `test_read_ndarray_oob` (tests/ndarray.rs:105-134), with a tenth of the extents. -/
def readNdarrayOob : M Fs Unit := do
  let h ← create
  let m := metaOf [10, 20] [5, 10] (RsType.zarrType .little .i32) .default
  let path := str!"test/array/group"
  createArray env h path m
  writeChunk env h path m (⟨[1, 1], (1 :: List.replicate 49 0).map (El.ofNat .i32)⟩ : DataChunk .i32)
  let a ← readNdarray env h path m .i32 ⟨[4, 17], [5, 5]⟩
  check ((a.toVec .rowMajor).all fun v => v = El.ofNat .i32 0)

set_option maxRecDepth 100000 in
example : Passes readNdarrayOob := by decide +kernel

/-- `test_write_read_ndarray` (tests/ndarray.rs:137-183), with fixed data and a smaller box. -/
def writeReadNdarray : M Fs Unit := do
  let h ← create
  let m := metaOf [3, 300, 200, 100] [3, 4, 2, 1] (RsType.zarrType .little .i32) .default
  let path := str!"test/array/group"
  createArray env h path m
  let shape := [3, 6, 3, 2]
  let array : NdArr (El .i32) := .ofMemory (El.default .i32) .rowMajor shape
    ((List.range shape.prod).map fun i => El.ofNat .i32 (i * 40503))
  writeNdarray env h path m [0, 5, 4, 3] array
  let a ← readNdarray env h path m .i32 ⟨[0, 5, 4, 3], shape⟩
  let c ← readNdarrayInto env h path m .i32 ⟨[0, 5, 4, 3], shape⟩ (.fromElem shape (El.default .i32))
  check (a.toVec .rowMajor = array.toVec .rowMajor)
  check (c.toVec .rowMajor = array.toVec .rowMajor)

set_option maxRecDepth 100000 in
example : Passes writeReadNdarray := by decide +kernel

/-! ## `tests/zarrita_compat.rs`

The directory `tests/data/zarrita.zr3`, byte for byte. -/

/-- The chunks of `seq/i2`: grid position, the bytes of the file, the bytes that `gzip -dc` gives. -/
def zarritaChunks : List (Str × Str × Str) :=
  [(str!"0/0/0", str!"1f8b080094e4e15f02ff05c1010a40300000c0433185fd60a3d8caecffdf73c76034992d82d566778892ec74b93d8aead57cba1ffb54313430000000",
    str!"000001000200030006000700080009000c000d000e000f001e001f002000210024002500260027002a002b002c002d00"),
   (str!"0/0/1", str!"1f8b080094e4e15f02ff6361606500012e066e302dc02008a6951894c1b406832698d663d007d30082b2148030000000",
    str!"04000500000000000a000b00000000001000110000000000220023000000000028002900000000002e002f0000000000"),
   (str!"0/1/0", str!"1f8b080094e4e15f02ff1362106610611065906090649062906680010306430623066306330673060b064b98300300e1f30ceb30000000",
    str!"1200130014001500180019001a001b000000000000000000300031003200330036003700380039000000000000000000"),
   (str!"0/1/1", str!"1f8b080094e4e15f02ff136310670001190659300d234c184cc14c2b066b9810980600d30461ce30000000",
    str!"16001700000000001c001d0000000000000000000000000034003500000000003a003b00000000000000000000000000"),
   (str!"1/0/0", str!"1f8b080094e4e15f02ff05c1890980200000c01bac144ac16a8332b0829efd17e8aed30ba2c128c98ac96cb1da54bbe670badc1eafcf0fdc770b1630000000",
    str!"3c003d003e003f004200430044004500480049004a004b005a005b005c005d0060006100620063006600670068006900"),
   (str!"1/0/1", str!"1f8b080094e4e15f02ff73607064000137067730edc3e00ba6e318e2c1740a432a98ce62c806d300d9123c1c30000000",
    str!"400041000000000046004700000000004c004d00000000005e005f000000000064006500000000006a006b0000000000"),
   (str!"1/1/0", str!"1f8b080094e4e15f02fff363f06708600864086108650863086780811c865c863c867c862286628612865298300300dd958b9930000000",
    str!"4e004f0050005100540055005600570000000000000000006c006d006e006f0072007300740075000000000000000000"),
   (str!"1/1/1", str!"1f8b080094e4e15f02ff0b6208660081088648300d230a180ac1cc3286729810980600aebba43630000000",
    str!"520053000000000058005900000000000000000000000000700071000000000076007700000000000000000000000000")]

/-- `flate2` on the streams of the test; other streams are stored with a mark. -/
def tableCodec : Codec where
  encode segs := (byte 0 :: segs.flatten, .ok ())
  decode b := match b with
    | [] => .err .other
    | x :: r =>
      if x = byte 0 then .ok ⟨r, none⟩
      else match zarritaChunks.find? fun e => hexBytes e.2.1 = b with
        | some e => .ok ⟨hexBytes e.2.2, none⟩
        | none => .err .other

/-- The environment with that codec for gzip. -/
def envZ : Env := { env with codecs := fun _ => tableCodec }

/-- `tests/data/zarrita.zr3/zarr.json`. -/
def zarritaJson : Str :=
  str!"{\n    \"zarr_format\": \"https://purl.org/zarr/spec/protocol/core/3.0\",\n    \"metadata_encoding\": \"https://purl.org/zarr/spec/protocol/core/3.0\",\n    \"metadata_key_suffix\": \".json\",\n    \"extensions\": []\n}"

/-- `tests/data/zarrita.zr3/meta/root/seq/i2.array.json`. -/
def zarritaMeta : Str :=
  str!"{\n    \"shape\": [\n        4,\n        5,\n        6\n    ],\n    \"data_type\": \"<i2\",\n    \"chunk_grid\": {\n        \"type\": \"regular\",\n        \"chunk_shape\": [\n            2,\n            3,\n            4\n        ],\n        \"separator\": \"/\"\n    },\n    \"chunk_memory_layout\": \"C\",\n    \"fill_value\": null,\n    \"extensions\": [],\n    \"attributes\": {},\n    \"compressor\": {\n        \"codec\": \"https://purl.org/zarr/spec/codec/gzip/1.0\",\n        \"configuration\": {\n            \"level\": 1\n        }\n    }\n}"

/-- The directory, at `/z`. -/
def zarritaFs : Fs :=
  let put (p : Str) (b : Bytes) : List Str × Node := (segs p, .file b)
  let dirs := [[], str!"/tmp", str!"/tmp/t", str!"/z", str!"/z/meta", str!"/z/meta/root", str!"/z/meta/root/seq", str!"/z/data", str!"/z/data/root",
    str!"/z/data/root/seq", str!"/z/data/root/seq/i2", str!"/z/data/root/seq/i2/c0", str!"/z/data/root/seq/i2/c0/0",
    str!"/z/data/root/seq/i2/c0/1", str!"/z/data/root/seq/i2/c1", str!"/z/data/root/seq/i2/c1/0", str!"/z/data/root/seq/i2/c1/1"]
  ⟨dirs.map (fun d => (segs d, .dir)) ++
    put str!"/z/zarr.json" (utf8 zarritaJson) :: put str!"/z/meta/root/seq/i2.array.json" (utf8 zarritaMeta) ::
    zarritaChunks.map fun e => put (str!"/z/data/root/seq/i2/c" ++ e.1) (hexBytes e.2.1)⟩

/-- `zarrita_test_data` (zarrita_compat.rs:17-29): `0, 1, …` in row-major order. -/
def zarritaData (m : ArrayMetadata) : NdArr (El .i16) := .ofMemory (El.default .i16) .rowMajor m.shape (upTo .i16 m.shape.prod)

/-- `test_read_zarrita_i16` (zarrita_compat.rs:32-50). -/
def readZarrita : M Fs Unit := do
  let h ← openHier envZ str!"/z"
  let m ← getArrayMetadata envZ h str!"/seq/i2"
  let a ← readNdarray envZ h str!"/seq/i2" m .i16 m.bounds
  check (a.shape = [4, 5, 6] && a.toVec .rowMajor = (zarritaData m).toVec .rowMajor)

set_option maxRecDepth 100000 in
example : (readZarrita zarritaFs).1 = .ok () := by decide +kernel

/-- `test_write_zarrita_i16` (zarrita_compat.rs:53-110), to the end of the comparison of chunks. -/
def writeZarrita : M Fs Unit := do
  let h ← openHier envZ str!"/z"
  let path := str!"/seq/i2"
  let m ← getArrayMetadata envZ h path
  let hw ← openOrCreate envZ base
  createArray envZ hw path m
  writeNdarray envZ hw path m [0, 0, 0] (zarritaData m)
  let a ← readNdarray envZ hw path m .i16 m.bounds
  check (a.toVec .rowMajor = (zarritaData m).toVec .rowMajor)
  let it ← M.lift (m.boundedCoordIter m.bounds)
  it.rest.forM fun pos => do
    let c ← readChunk envZ h path m .i16 pos
    let d ← readChunk envZ hw path m .i16 pos
    check (c.map (·.data) = d.map (·.data))

set_option maxRecDepth 100000 in
example : (writeZarrita zarritaFs).1 = .ok () := by decide +kernel

end Zarr.Conformance
