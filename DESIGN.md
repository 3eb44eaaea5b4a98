# Formal model of sci-rs/zarr in Lean 4

The Rust crate in `/repo` is modelled as executable Lean functions, and the properties listed in
`properties.jsonl` are theorems about them. The code is not run; the tie between the model and the code
is the citation in the comment of every definition and a function-by-function reading.

## 1. Layout

| place | content |
|---|---|
| `lean/Verif/Basic.lean` | outcomes (`ok`, `err kind`, `panic`), the state monad `M`, strings as lists of characters |
| `lean/Verif/Model/*.lean` | the model, one module per source file or concern |
| `lean/Verif/Spec/*.lean` and definitions named `Spec.*` | small specifications that do not use the model's helpers |
| `lean/Verif/Lemmas/*.lean` | helper lemmas |
| `lean/Verif/Props/*.lean` | the property theorems (`C01`, ...) and the examples beside them |
| `lean/Verif/Demo.lean` | concrete environments, hierarchies and arrays used in examples |
| `properties.jsonl`, `MANIFEST.json` | the properties and the theorems that settle them |
| `seeded/LOG.jsonl` | wrong programs tried against the theorems |
| `tools/` | generators of the files above and of section 9 |

A theorem named `Cxx` states property `Cxx` in full. `Cxx_partial` states a part of it; its comment says
what is missing. `Cxx_violated` proves the negation of the full statement, with a concrete witness, where
the code does not have the property.

## 2. Trusted base

* Lean's kernel (4.33.0). `lake build` elaborates everything; no `sorry`, no `native_decide`, no
  `bv_decide`, no axioms of our own, no `unsafe`, no `implemented_by`.
* The axioms `propext`, `Classical.choice`, `Quot.sound` of Lean, and no others. Section 9 lists the
  axioms of each theorem in the manifest.
* That the model describes the code (sections 3 and 4).
* The laws assumed of code outside the repository. They appear as hypotheses of the theorems that use
  them, never as axioms:
  * `JsonText.Lawful`: `serde_json` parses what it prints, for documents without repeated keys whose
    floating point numbers survive printing (the predicate `floats` says which) and whose arrays and
    objects are nested at most 127 deep; deeper documents are printed and not parsed (the recursion limit
    of `serde_json`, C89); the empty text does not parse. `Model/JsonText.lean` is a concrete printer and parser that is proved to satisfy the law.
  * `Codec.Lawful`: a compression library decodes what it encodes, then reports the end of the stream.
    Proved for the raw codec. The gzip, bzip2, xz and LZ4 libraries themselves are not modelled.
    C106 and C107 have several environments and assume `Spec.Together`: one JSON library, and each environment decodes what
    the others encode.
  * `Spec.NothingInNothing` (only in `C47_violated_chunk` and `C73_violated_always`): a decoder finds no byte in an empty file.
  * `LzFear.Lawful`: `lz_fear` decodes one frame at a time and refuses an empty input (C51).
  * `Env.versionReq`: semver's `VersionReq::parse` and `matches`, any function.
  * `Env.floatFill`: serde's conversion of a JSON number to `f16`, `f32`, `f64`, any function.
* The meaning given to `std`, `byteorder`, `half`, `ndarray` 0.13, `itertools` 0.8, `walkdir` and `fs2` in
  the model (section 4). Their sources are not available here; they are modelled from their
  documentation.

## 3. What is modelled

| code | model |
|---|---|
| `lib.rs` 59-65 version, 68-78 `add_extension`, 156-182 entry point and extension metadata, 187-214 keys, 216-338 trait methods, 340-342 `u64_ceil_div`, 345-402 metadata and serde, 405-525 `ArrayMetadata` methods | `Path`, `Metadata`, `Grid`, `Store`, `Machine` |
| `storage.rs` 47-63 `list`, `list_prefix`, 109-127 `get_chunk_key`, 129-142 attribute merging, 145-306 `HierarchyReader`, 310-357 `list_nodes`, 361-480 `HierarchyWriter` | `Path`, `Store` |
| `store/filesystem.rs` 50-139 opening and `get_attributes`, 142-190 `get_path`, 196-254 reading and listing, 260-312 writing and erasing | `Path`, `Store`, `Crash` and `CrashCalls` (states in between), `Locks` (system calls of concurrent calls for one key), `Threads` (system calls of concurrent API calls), `Walk` (the same with recursive removal and listing) |
| `chunk.rs` 88-100 reinitialising, 104-237 reading and writing data, 248-335 default reader and writer | `Elem`, `Chunk` |
| `data_type.rs` 15-251 types and serde, 282-309 extensible types, 375-443 dispatch, 463-490 reflection | `DataType`, `Elem` |
| `compression/mod.rs` 37-156, `gzip.rs` 28-34, `lz.rs` 55-65, `lz_pure.rs` 23-71, `raw.rs` | `Compression`, `LzPure` |
| `ndarray.rs` 43-149 boxes, 154-385 reading and writing, 391-480 iterators and bounds, 485-532 `CoordIterator` | `Ndarray`, `Machine` |
| `data_type.rs` 446-450 `Display`, with the derived `Debug` of 15-21, 46-51, 74-78, 116-123 | `Display` |
| `BufWriter` and a device without room | `Device`, `DeviceMore` |
| when the encoders write, and what they do with errors on drop (`lz.rs:37-43`) | `Streams` |
| two `set_attributes` calls at the same time | `Interleave` |
| `open` and `open_or_create` of several processes at the same time | `Opens` |
| threads that make calls one after the other, until the process dies | `Sessions` |
| system calls that fail | `Faults` |
| chunks in the hands of the caller: bounds, views, reuse of buffers | `ChunkViews` |
| symbolic links | `Links`, `LinkWalk` (`erase_prefix`) |
| the calls on an arbitrary implementation of the store traits | `AnyStore` |
| `src/compression/{bzip,gzip,lz,xz}.rs` encoders and decoders (the four libraries are parameters; how each configuration becomes an argument of a library is modelled) | `Libraries` |

Not modelled: the macros' expansion itself (their arms are written out), `prelude.rs`, the raw element
types `[u8; n]` (they have no chunk I/O), the compression libraries, hard links, name length limits, memory exhaustion,
`store_chunk_metadata` (`todo!()` in the code; the model panics), benches and tests.

## 4. Modelling decisions and simplifications

* **Panics, errors, effects.** A call returns `Outcome` = `ok` / `err kind` / `panic` and the new
  filesystem; a failing call may have changed the filesystem. An error is reduced to its `ErrorKind`.
  Unwinding out of a panic (dropping guards and writers) is not modelled.
* **Strings** are lists of Unicode scalar values. Where the code counts bytes the model counts UTF-8 bytes.
  Paths are UTF-8 strings.
* **Paths.** `std::path` on Unix: components, join, file name, extension, `set_extension`. A relative base
  is read relative to the root of the modelled tree.
* **Filesystem.** A finite map from locations to files (bytes) and directories; POSIX resolution including
  `..`. `Fs.WF` says that the map is a tree. `erase_prefix` is meaningful for paths without `..` only, since
  `walkdir` would remove directories its own path goes through.
* **`Plain`** says that a list of components has no `..`. Most theorems about a hierarchy assume it of the
  base and of node paths, since with `..` one location has several names (and C41 is false).
* **JSON objects** are association lists in insertion order; `serde_json::Map` sorts keys. No property
  depends on the order. `JsonText.raw` is the document as it stands in the text, `JsonText.parse` the
  `serde_json::Value` read from it, in which the last of repeated members counts (`Json.dedup`, `dedup_last`).
  Structs are read from the former as serde's derived `Deserialize` does: from an object, where a repeated
  known member is an error and unknown members are skipped, or from an array of the fields in order
  (`Json.members`). Simplified: when several members are malformed, the first in the order of declaration
  decides between an error and a panic, not the first in the text; the depth of unknown members, which
  serde_json skips without a limit when it reads a struct, counts; the tag of a codec is read from a string
  only. The text law is only assumed for documents without repeated keys.
* **Integers.** Coordinates are natural numbers in the main model. `Model/Machine.lean` repeats the
  arithmetic on 64-bit and 32-bit words, with overflow checks on or off; C57 says when they agree.
  `usize` has 64 bits. The cast of element counts to `u32` in `chunk.rs` is in the main model (C09).
* **Floating point** elements are bit patterns.
* **ndarray** arrays are a shape and a function from indices; slicing and assignment check bounds as
  ndarray 0.13 does. `assign` is only used with equal shapes.
* **itertools 0.8**: `multi_cartesian_product` is the lexicographic product, and empty for zero factors.
  It starts over when polled after `None`; the model keeps returning `None` (no caller polls again).
* **Readers** returned by `get` are read to the end. In `Model/Store.lean` a call runs to completion before
  the next begins.
* **Crashes** (C45, C46, C71-C74): the process dies between system calls or after any byte of a write.
  `erase_prefix` is taken apart into the removals of its loop, in any order that has contents before
  directories; `erasePrefix_loop` says that the whole loop is the one step of `Model/Store.lean`. Power loss,
  which can lose or reorder what the kernel accepted, is not modelled.
* **Locks** (C47, C62, C63): one key, any number of threads, `flock` semantics; the parent directory exists,
  closures succeed, nobody dies, a reader reads to the end.
* **Threads** (C75-C80): any number of threads, each running a program of store calls; every `exists`,
  `mkdir`, `open`, `flock`, truncation, `unlink` and every byte read or written is one step, in any order.
  The API calls are written a second time as such programs, and `Lemmas/Threads.lean` proves that each, run
  alone, is the call of `Model/Store.lean` and `Model/Ndarray.lean`. An open file and its lock belong to the
  location of the file (`Locks` has inodes), so an open file that somebody else erases is not followed.
* **Removal and listing among threads** (C93): `Walk` adds the steps of `erase_prefix` (`exists`, `lstat`,
  `read_dir`, and for every entry `open`, `flock`, `unlink` or `rmdir`) and of `list_dir` (`read_dir`, then
  `stat` of every entry) to those of `Threads`. The names in a directory are read in one step when it is
  opened, with the types the entries have then. `Lemmas/SoloWalk.lean` proves that a program run alone step
  by step ends as it does call by call.
* **Interleaving** of `set_attributes` (C48): the reads and the write of a call are one atomic step each.
* **Opening at the same time** (C98): any number of calls of `open` and `open_or_create` for one base path;
  every `stat`, `mkdir`, `open`, `flock` and every byte read or written is one step; nobody dies, nobody else
  uses the directory, the document is read to its end before it is parsed.
* **Symbolic links** (C99 and C104; everywhere else there are none): files and directories as before, and links at
  leaves, with absolute or relative targets. Path resolution follows links on the way always and at the end for
  `stat` and `open`; `mkdir`, `unlink` and `readdir` do not follow; at most 40 links, then an error. `list_dir` leaves
  out entries whose `fs::metadata` fails. What `erase_prefix` does with links is up to `walkdir`: in C99 it is a parameter
  that the theorem says nothing about, and `remove` is left out. C104 has `walkdir` 2 as its documentation and source
  (not in the sandbox) describe it: links below the root of a walk are yielded and not followed; a root that is a link to
  a directory is opened, but yielded before its contents, as `contents_first` defers only what is itself a directory.
  The names in a directory are read when it is opened. A number bounds the depth of the walk; the theorems show it is enough
  (running out is a panic in the model).
* **Full device** (C53, C61, C121, C122): only file contents need room, `BufWriter` has 8 KiB, is dropped without
  flush and ignores the error; nobody else uses the device (in C121 and C122 the room for each file is arbitrary). An encoder is what it
  writes when built, for each piece, and on drop, any byte strings; `flate2`, `bzip2` and `xz2` are assumed to ignore errors
  on drop, as their documentation says, and `lz4` to return them from `finish`.
* **Failing system calls** (C87, C88, C95): each step of a call of `Threads` or `Walk`, run alone, may fail with any error
  (device, permissions) and then has no effect; a write that fails has written the bytes before. `exists` and
  `is_file` count errors as "no", as `std` does. A failing write is reported, or is one that `BufWriter` makes
  on drop, which is not; the model allows both for every byte. In `list_dir` a `stat` that fails drops the
  entry (`filter_map`); in `erase_prefix` every error but those of `exists` ends the call. A system call that
  `std` repeats after `EINTR` is one step.
* **Any store** (C100, C101): the programs of store calls of `Walk` run on a record of functions, one for each method of
  the traits but `uri`, `list` and `list_prefix`; readers are read to their end, a closure given to `set` is the bytes
  it writes and its result. `h.base` is not used by the programs.
* **Compression libraries.** C102 assumes of them (`Spec.Documented`) what their documentation and sources say: bzip2
  takes block sizes 1 to 9, gzip levels up to 9, xz presets 0 to 9 with or without bit 31, and for those what is written can be
  read; `BzEncoder::new` and `XzEncoder::new` panic for others (they assert or unwrap the initialisation of the C library).
  All other theorems assume of the codec of the array at hand only `Codec.Lawful` and, where stated, that encoding succeeds;
  `accepted_codec` shows both for accepted configurations.
* **Death of a process with several threads** (C103): `Sessions` adds to `Walk` the moments at which a call begins and
  returns. When the process is killed, what its system calls have done stays (a power failure is not modelled) and its
  locks are released.
* **Arrays after a failed read.** `Model/Kept.lean` has the array that the caller of `read_ndarray_into` has when the
  call returns an error or panics. What the chunk buffer holds then is not modelled (`Read::read_exact` says nothing about
  the bytes after an error); by C24 no later read depends on it.
* **Fuel.** `list_prefix` is a loop; the model bounds the number of directories visited and C69 says that
  some bound is enough on every store.

## 5. How each property is stated and proved

| id | model | proof |
|---|---|---|
| C01 | `writeChunk`, `readChunk` | byte codec inverse by induction on the data; set/get lemma on the tree |
| C02, C64 | `writeData`, `readData`, raw codec | equality with a byte layout defined by digits base 256 (`Spec/Layout.lean`) |
| C03 | chunk keys, `storeSet`, `storeErase` | frame lemma on locations and injectivity of keys |
| C04 | `chunkKey` | injectivity by parsing the key back; witnesses for other separators; `C04_exact`: within one array, exactly the separators of digits alone fail (≤ 17 of them) |
| C05 | histories of writes and deletes | refinement to a finite map, induction on the history |
| C06 | `deleteChunk` | case analysis on the tree; `C06_exact` for every entry at the location |
| C07 | `writeChunk` | witness; what survives; `C07_exact`: what is stored after every error |
| C08, C56 | `checkArrayType` | finite case analysis lifted to all stored bytes; `C56_exact`: every read and write with such a type |
| C09 | count check | exact below 2^32; witness above; `C09_exact` for all lengths (`Spec.FitsArray`) |
| C10, C11 | `readExact`, `reinitialize` | list lemmas |
| C12-C14 | `u64CeilDiv`, `gridExtent`, `inBounds`, `numChunks` | arithmetic; witness; when the extent is right (`C12_exact`), the exact positions in bounds and their number (`C13_exact`, `C14_exact`) |
| C15-C17 | `CoordIter` | membership, order and length of products, induction on the dimensions; `C15_exact`, `C17_exact` also without dimensions and past the end |
| C18, C19 | `BBox` | pointwise |
| C20-C25, C68 | `readNdarray`, `writeNdarray` | loop invariants by induction over the coordinates, refinement to functions from positions to elements |
| C26-C28 | same | witnesses; exact conditions; exact effect on chunks (`C27_exact`); what is read back (`C28_exact`) |
| C29, C30 | `DataType` serde | table of type names; witnesses; `C29_exact`: which types are read back |
| C31, C66 | metadata serde | structural; independent document format (`Spec/Documents.lean`); `C31_exact` gives the result of reading for all metadata that Rust values can be, with `Spec.kept` for what a document keeps; `C66_exact` says what the document of any new array describes |
| C32, C44 | opening, `getArrayMetadata` | case analysis |
| C33-C35 | `setAttributes` | lookup in merged objects |
| C36, C37, C60 | creation and existence | location lemmas; invariant over histories of calls; `C60_exact`: how another node's creation and removal affect `exists` |
| C38, C39 | `remove` | frame lemmas; witnesses; exact effect on documents and chunks (`C38_exact`, `C39_exact`) |
| C40 | all calls | canonical paths |
| C41 | `Sim`, `Confined` (same below the base: same result, nothing outside changed), `ConfinedTrees`; `dest`, `passed` (where a key leads and through what, by its components), `InLine`, `Refused` | `C41_partial`: every call on paths without `..`; `C41_partial_up`, `C41_partial_ndarray`: every call but `remove` on paths with `..` that go up two levels at most; `C41_exact`: for every key, exactly when each store call stays inside; `C41_violated_always`: `create_group` outside, for every base |
| C42, C43, C69 | listing | sorting; exact result; a measure that grows with every directory visited; witnesses and failure on every hierarchy with a node |
| C45, C46 | `Crash` | every state in the list of states; `C45_exact` (Props/CrashExact): exactly the states without a part of the document can be recovered, given that no part of it is a JSON text (`Spec.Uncuttable`, a hypothesis about serde_json; `Lemmas/JsonCut` proves it for every object the texts of `Model/JsonText` can hold, so `C45_exact_text` does without); `C45_runs`, `C46_runs`: the list is exactly what the small-step models (`Opens`, `Threads`) pass through |
| C71-C74 | `CrashCalls` | what a call writes depends on file contents only; every state of the call is the old one, has some directories more, or a prefix of one file; `NodeOp.crash_ends`: first and last state; `C71_runs`: exactly the points of the runs of `Threads`; `C71_runs_remove`: all points of the runs of `Walk`; `C72_exact` (Props/CrashExact): what every crash inside a creation leaves, given `Spec.Uncuttable`; `C72_exact_text`: the same without that hypothesis for the texts of `Model/JsonText`; `C72_exact_attributes`: the same for `set_attributes` (`Spec.Uncuttable.objects` gives its hypothesis for those texts) |
| C47, C62, C63 | `Locks` | inductive invariant over reachable states; measure for termination; witness schedule. `C47_violated_chunk`, `C47_violated_array` (Props/SeenEmpty): the writer stops between `open` and `lock_exclusive`, where it holds no lock, and the reader runs to its end (Lemmas/Turns) |
| C75 | `Threads` | each thread's position is related to the program evaluated on the files it uses alone (`PcInv`), and steps of other threads change none of those; a cost bounds the steps |
| C76, C77 | API calls as programs | the files a call uses; C75; the simulation of C70. Witness schedules |
| C77 (shared) | calls with at most one visible access | a shared file is changed by one `set` or looked at by one `get` per call; the log puts each call at that access (`serializable`), on top of C79 |
| C93 | `Walk` | every thread has a twin that runs alone on the part of the tree below its roots and takes the same steps (`Rel`); other threads change nothing there but may make directories above (`Twin`). Witness schedules for C77 |
| C94 | `Walk`, changes by others (`Unrelated`) between its steps | the twin of C93 for one thread (`Track`); a change by others is an effect apart from its roots (`unrelated_eff`). The trusted part is that changes of others are atomic `put`, `del` and `mkdir` of single entries; a rename is a `del` and a `put` |
| C79 | `Threads`, whole calls (`ASys`) | simulation: a `set` counts when it has its lock, a `get` when it has its lock, `exists` when it looks (`Sim`) |
| C80 | `Threads` | a well-founded measure of every thread's rest; a file being read does not grow because of the locks (`Locked`); finitely many threads, hence a bound |
| C78 | `writeNdarray`, `readNdarray` as programs | the chunks a box meets; C75, C23. Witness schedule; `C78_violated_always` (Props/LostBoxes): a thread that is between store calls lets another run to its end (Lemmas/Turns), then goes on with the chunk it read before |
| C48 | `Interleave` | all schedules of two calls; witness; `C48_exact` for every overlapping schedule |
| C49, C50 | compression parameters | case analysis; `C49_used` (Props/CompressorUse): what reaches the libraries; `C50_exact`: which names parse |
| C51 | `LzPure` | induction over the buffers written |
| C52 | `effectiveFillValue` | case analysis |
| C53, C61 | `Device`, `DeviceMore`, `Streams` | induction over the pieces written; `Poured` (what a `BufWriter` has done) composes; `C53_partial_builtin` for the two encoders written out; `Spec.CutOff` (`C53_partial_cut`, `C61_partial_cut`): the call on the limited device against the same call on an unlimited one |
| C54, C65 | locations of files | locations with `Nat.toDigits` |
| C55 | reflection | finite tables |
| C57 | `Machine` | no-overflow lemmas; witnesses |
| C58 | reading calls | each is a `read` |
| C59 | `writeChunk`, `readChunk` | from C01; witness; `C59_exact`: panic outside the grid, the first elements modulo 2^32 inside |
| C67 | creating and writing calls | exact success conditions |
| C70 | all node and chunk calls | simulation of an abstract hierarchy, induction on the history; ordinary names keep files out of each other's way (`Lemmas/Clear.lean`) |
| C81 | the calls of C70, `readNdarray`, `writeNdarray` | the same simulation; a round of the write loop is a `writeChunk` of the new elements (`writeCoord_write`), the rounds are at different positions (C16), the reads are C10 and C67 |
| C82 | `openOrCreate`, `openHier` and the calls of C81 | every call is a sequence of store calls on keys below `meta` and `data` (`Restricted`), so the entry point document stays; opening depends on it alone (C44); the rest is C81 |
| C83 | `ArrayMetadata.new`, `createArray` and the calls on the array | the document is computed and compared with a literal; it is faithful, so C31 applies; C01, C65 and C81 for the rest |
| C84 | `writeNdarray` | induction over the chunks: a round that fails leaves the tree as it is if the element type is the array's (`writeCoord_failed`), else see section 6; a round that succeeds changes one chunk (C22); `C84_violated_always` (Props/WrongType): with any other element type the call always fails in its first round |
| C85 | `readNdarray` | the loop sees the tree through `readChunk` only, which sees it through one `storeGet`; the chunks visited are those of C16; success is C68 and its converse |
| C86 | the calls of C81 | a map from points to elements, without chunks; C81 gives the abstract chunk map of each hierarchy, and both show the same elements (`Shows`) |
| C87 | the programs of `Threads` with failures (`Pc.runFaulty`) | invariant `FInv`: if the rest of the program ends with Ok without further failures, so does the whole call, with the same tree; each program stops at the first error (`Strict`); `C87_violated_*_always`: the unnoticed failures, for every chunk, node and box, by running the rest of the call alone (`leads_run`) |
| C88 | the same | invariant `HInv`: the rest of the program uses its own files only; every step changes only these and directories above (`Only`) |
| C87, C88 for `remove` and `list_nodes` | `Walk` with failures | programs that only erase and list (`Removes`, `Tame`): a noticed failure ends the call with the error or does not matter, so a call that returns Ok is the one without failures (`solo`); every step only removes, below its places (`Shrinks`); `C87_violated_remove_always`, `C87_violated_listing_always`: with failing checks `remove` returns Ok and leaves everything, `list_nodes` returns Ok of nothing, at every node |
| C95 | both, with failures | the measure of C80 also decreases when a step fails (`failed_less`); for `remove` and `list_nodes` induction on the program and along the run without failures, which every failure leaves for the rest of the program (`Ends`, `Busy`) |
| C96 | `Spec.Moved b b'`: both directories exist and hold the same at every relative location; `Spec.SameAt`: equal results and `Moved` states | every step of the store operations on keys with ordinary names acts equally in the two places (`MRel`), hence every program of store operations (`Wide.keyed_run`); `list_nodes` does not depend on the order of entries (`listNodesOf_perm`, sorting twice gives the same for permuted names). `get_chunk_uri` (its result contains the base path), `list`/`list_prefix` and `list_dir` of the store itself (their order is that of the directory) are not part of the claim |
| C97 | the documents of a node (`arrayDoc`, `Spec.nodeDoc`), `Spec.readError`, `Spec.writeError` (the error by chunk file, types and lengths), dimensions | the possible errors of every part are computed (`OnlyErr`, `CallErr`): derived deserialisers give only `json`, walking gives only `NotFound`, `NotADirectory`, …, so the kinds returned by the crate itself can be told apart. An error of serde_json is the kind `json` of the model; as `std::io::Error` it is `InvalidData` or `UnexpectedEof`. `C97_chunks` and `C97_boxes` are for raw arrays, because decompressors return errors of their own |
| C98 | `Spec.New` (no hierarchy, no file in the way), schedules of system calls (`Opens.Sys.run`) | at any time the file is absent or holds the first `c` bytes of the document, and `c` never falls: two writers write the same bytes; if the file exists somebody is writing it or has; a measure of the steps left. That no proper beginning of the document is a document is a hypothesis (`hpre`), proved for the modelled JSON text in `C98_partial_text`. The unlocked reading branch is why the full claim is false |
| C99 | `Spec.Shows` (`stat` of every path below the base directory gives what is there in a filesystem without links; no link there is broken), `Spec.Single` (no two paths lead to the same place), `Spec.LinkToDir` | `Links.C99_reads` needs only `Shows`; `Links.C99` is for histories of all calls but `remove`; the relation is kept because a call changes what one path shows (`Change`): putting or removing a file, making a directory, removing a link to a file; an example shows that deleting a chunk that is a link to a directory differs; the tests `checkShows` and `checkSingle` give the hypotheses for concrete filesystems |
| C100 | `Spec.KeepsValues` (what `exists`, `get`, `set`, `erase` and `erase_prefix` have to do to the values of the keys used), `bAbsResults` (the map of C70/C81), `Spec.Tidy` (one slash between names) | simulation by a run on a filesystem that holds the same values: the keys of different documents and chunks differ as strings and as locations; closures of `set` that fail do not occur in permitted calls; examples: the filesystem and a store in memory satisfy the laws. On other stores `a//b` and `a/b` are different nodes, hence `Tidy` |
| C101 | as C100, with `p <+: k` for the keys under a prefix; `Spec.PrefixSafe` | between ordinary tidy paths, a prefix as a string is one name by name if `PrefixSafe`; `C101_violated` with a store in memory; `C101_violated_always`: whatever that store contains, removing a node loses the chunks of every array whose path begins with the same characters |
| C102 | `Spec.Documented` (the laws of the libraries), `Spec.Accepted` (the configurations they take, as signed numbers), `Spec.ChunkFits` | the argument computed from the configuration is one the library takes exactly if `Accepted`; then C01; otherwise the encoder panics in the closure of `set`, after the file was truncated. `C102_violated` for four configurations, each from a document that `create_array` wrote |
| C103 | `Sessions`; `Spec.finishedCalls` (the calls that have returned, one thread after the other), `Sessions.Pending` (begun, not returned) | the twins of C93 for the call that a thread is in; every call changes each location with at most one store call (`Prog.Once`, `once_call`), so a location is as before the call, as after it, or being written (`stepped`, `Track.torn`); the returned calls of all threads in a row agree with each thread alone below its roots (`mixed`) |
| C104 | as C99, with `Spec.StraightLinks` (links go up only at their beginning), `Spec.RemovesThroughLinks` (the whole claim) | `Links.C104_partial`: cutting a subtree that no path goes through leaves every other path as it was (`Cut`, `walk_cut`); the walk removes what the plain walk removes (`removeDir_links`). `Links.C104_spares` has no assumption about links: the walk only deletes what its own path led to at the beginning (`Less`, `removeDir_less`). |
| C105 | `InBox`, `Covers`, `Inside`, `linear`, `rel` of `Spec/Box` | `C105_partial` for chunks of fewer than `2 ^ 32` elements; `writeNdarray_own`: the box of a chunk meets one chunk only (`touches_own`), so the two ways of writing are one; `C105_exact` for chunks that the caller builds |
| C106 | `mResults` (each call by its own `Env`), `Together` (same JSON library; what one compresses the other decompresses), `BCall.Known`, the map of C81 | `C106`: all programs hold the same map (`Holds.other`): documents by `ArrayMetadata.fromJson_other`, chunk files because each is what some program compressed (`Written`, kept by every call), byte order because a type with a Rust type declares it or has one byte (`elsOfBytes_native`). `C106_unknown`: a build without the compressor |
| C107 | `mState`/`bAbsState` (files and map after calls each by its own `Env`), `AtOnce` (calls of programs that do not touch what another changes, areas of C93), `Rounds`/`roundResults` | `C107`: each program's system calls stay within its areas (`Wide.separate`, the areas of C93 with one `Env` per program), so each result and each file is as if the programs ran alone; nothing stands in the way of any file before (`Shared.history`) and after (`Wide.round`), so all programs find the map afterwards and later histories follow by C106. `C107_rounds`: any number of rounds by induction |
| C108 | `madePaths` (where a history created nodes, by the map of C81), `Below`, `ListingsShow` (the claim) | `C108_partial`: the directories of the metadata tree are those above created nodes and its files are the documents of the nodes (`MetaTree`, kept by every call; what a call changes comes from the areas of C93), then the exact result of C42. `C108_undotted`: suffixes without a leading dot |
| C109 | `StoreOp`, `logged` (a store that behaves like the given one and keeps a log of its calls), `WCall.Script` (the complete call sequences, with places as in C81), `WriteScript`, `ChunksInOrder`, `ChunkInBox` (every point of the chunk is in the box) | `C109`: for every store and every answer, the log is the beginning of a script and a whole one if the call succeeds; the log does not change what the call does. Proved over the tree of a call's program (`Logs`): all answers of every store call are covered, also errors and panics. |
| C110 | `resized` (metadata with another shape), `ECall.resizedAbs` (a write changes the elements in the box and in the shape), `ECall.chunkedAbs` (… in the box and in a chunk that begins inside the shape), `NoOverhang` | `C110_exact`: all histories, with what a read sees and a write changes stated through chunks; `C110_partial`: on plain elements if no written box has points outside the shape in a chunk that begins inside it; `C110_violated`. Proved with the map of C81 and one shape large enough for all calls. |
| C111 | `DataType.visitStr` (what C29 and C30 are about) on all texts | injective, and disjoint from the accepted names |
| C112 | `Anchored` (the part of the path up to its last `..` names a directory), what the tree holds before and after | `C112_partial`; `C112_partial_others` for every base path; `create_dir_all` takes nothing away and makes no files, whatever the path |
| C113 | `User` (machine and build, handle, metadata, calls), `BasesApart` (different bases, neither in `meta` or `data` of the other), `User.Apart`, `mixedResults` (calls one after the other) | `C113`: the simulation of C93/C94 (`Track`), now with one handle per thread (`Sys.runIn`; locks are on files, so they are shared by all handles); `C113_history` for calls one after the other; `C113_needed`: a hierarchy in the `data` directory of another loses its arrays when a node of the outer one is removed |
| C114 | `Healthy` (no step of the program is a failing one), `stepsOf` | `C114`: healthy programs are tracked as in C113; of the others only `Loose` is kept (`Lemmas/Loose.lean`), which says which places a call in any state may still write, lock or wait for, and which survives every failure of `Model/WalkFaults.lean`; `C114_needed`: a program whose own calls fail may be told that there is no chunk |
| C115 | `StoredElem` (the element's chunk is stored and holds the value there), a set of positions closed downwards in the order of positions | `C115`, on `readNdarrayIntoKept` (`Model/Kept.lean`), which returns the array whatever the call returns and is proved to agree with `readNdarrayIntoWithBuffer`: a loop that stops is a loop over the positions before the one it stopped at. The second read is one of any store that still has the chunks the first had. |
| C116 | `SomeWrites` (in a chunk, `f'` is what a list of writes taken from all writes makes of `f`), `Mixed`, `Served`; `Spec.update` of C23 | `C116`, `C116_elements`: C79 turns system calls into whole store calls (all chunks are shared files, nobody owns one); `Prog.Steady` says that each store call of a program keeps an invariant in whatever state it is made, so that threads keep it together; a round of `write_ndarray` is a `get` and a `set` (`GetSet`), and the bytes it sets are those it leaves when run alone from the state in which it made its `get`, so the sequential `writeCoord_spec` applies |
| C117 | `Locks`, `Chunk` | Props/ChunkRace: C47 and C62 for the values that encode chunks. Only values a `set` was called with get into the log (`log_reach`); a file that is seen empty was created by a `write_chunk`, and no chunk with elements is in an empty file |
| C118 | `Locks` | Props/Linear: the calls that used file number `i` and those that found no file are parts of the sequence, in the order of the files; a call that returns goes to the end of its part, also when its file has lost its name; an `erase` gets its place when it removes the name. `SInv` (parts), `HInv` (order of calls that do not overlap). `C118_partial_alone` (Props/Alone): the run of one thread to its end |
| C119 | `Locks`, `Chunk` | Props/ChunkLinear: the sequence of `C118_partial` with the chunks that the values encode. The store call determines the chunk call (`storeCall_inj`, by decoding); an empty value is not read as a chunk |
| C120 | `Path`, `Store` | Props/Spelling: `Respelled` is a rewriting relation on strings that does not mention `segs`; `C120_names` shows that it is equality of the names, so it also describes `segs`, which the other statements use. Keys of respelled paths have the same names (`SameKey`, kept by `set_extension`), and the store looks at the names of a key only. `list_nodes` counts bytes of the key (`C120_violated`); Props/SpellingList: where it gives the same listing, from `C42_exact` |
| C121 | `DeviceBox`, `Device`, `Streams`, `Ndarray` | Props/DeviceBox: the loop on both devices side by side; the relation `Cut` (the files of the chunks written so far are cut off, everything else is equal) is kept by each round because a chunk is read before it is written and no chunk is visited twice (`C16_partial`). The room for each file is an arbitrary function of the position, so any course of the device is covered. `Limited` is what the proof needs of a device, shown for the raw compressor and for every `StreamEncoder` |
| C122 | `DeviceBox`, `Device`, `Streams`, `Ndarray` | Props/DeviceBoxFail: a round leaves the tree alone or is one `set`, whose result may be an error; `Cut` up to the round that fails |
| C89 | `setAttributes`, `listAttributes` | the merged document is as deep as the attributes; `C89_violated_always` for all deep attributes |
| C90 | `removeAll` | `remove_spec`, C38, C39 |
| C91 | `getAttributesRaw` | `set_extension` twice on the path of a document |
| C92 | `getArrayMetadata`, `listAttributes` | document format of C66; repeated members |

## 6. Where the code does not have the property

Each of these is a theorem `Cxx_violated` with a concrete witness, and a `Cxx_partial` for what holds.

| id | what happens in the code |
|---|---|
| C04, C39 | with an empty separator, one starting with a digit, or one with `/c` in it, different chunks share a key; `remove("a/c1")` deletes chunk 1 of array `a` |
| C06, C60 | a node whose path names a chunk or document of another node: `delete_chunk` of a directory fails, `exists("x.array.json")` is true when `x` is an array |
| C07 | `set` truncates the file before the closure checks the element type and count: a refused write destroys the stored chunk |
| C09 | the element count is compared after `as u32`: 2^32 + n elements are accepted for n |
| C12-C14 | `u64_ceil_div` adds 1 before dividing: an extent one short of a multiple of the chunk size gets a chunk too many |
| C15, C17, C28 | arrays without dimensions have no grid position; their element is never read or written; `len()` is off after exhaustion |
| C16, C26, C27 | a box outside the array is not recognised as empty: `bounded_coord_iter` yields positions, reading panics, writing an empty array stores a chunk |
| C29-C31, C66 | raw types are written with NUL padding and cannot be read; one-byte big-endian integers come back little-endian; malformed strings of three bytes panic; a fill value of null is read as none |
| C38 | `remove` leaves the documents of descendants |
| C41 | `get_path` only counts the components of the whole key: one that climbs above the base and comes down elsewhere is accepted (`create_group("../../../x")`) |
| C42, C43 | `list_nodes` cuts the metadata suffix off twice (short names panic); `list_dir` leaves out the separator, so `list` fails on every hierarchy with a node (`C43_violated_always`) |
| C45 | a crash before the entry point document is complete leaves a file that `open_or_create` can never use |
| C98 | `open_or_create` of a hierarchy that another process is creating finds the file, reads it without the lock, and fails with an error of serde_json; with the same interleaving `open` fails too; `C98_violated_always`: so for every new base path, for every call made at the same time as an `open_or_create` |
| C72, C73 | `set` truncates and then writes: after a crash inside `create_group` the second call returns Ok and the group is unreadable; `create_array` fails with AlreadyExists, the array unreadable; `set_attributes` loses the document; `write_chunk` loses the chunk; `C73_violated_always`: every `write_chunk` of a chunk with elements has such a state |
| C47 | `set` creates the file before it locks it: a reader can see an empty value; `C47_violated_chunk`, `C47_violated_array`: so for every first write of a chunk with elements and every `create_array`, `read_chunk` and `get_array_metadata` can fail meanwhile |
| C48 | `set_attributes` does not lock between reading and writing: updates are lost |
| C77 | no lock covers a whole call: `create_group` and `create_array` for one path at the same time both return Ok and leave both documents; of two `set_attributes` calls one is lost; `remove` while a chunk is written fails with half of the chunks gone, or makes `write_chunk` fail; of two `remove` calls one fails; `C77_violated_always` (Props/LostNodes): the first race exists at every path without a node |
| C78 | `write_ndarray` reads a chunk that it overwrites in part, then writes it: two threads that write different elements of one chunk both return Ok and one element is lost; `C78_violated_always`: so for every array, every box in a part of one chunk and every other box |
| C50 | `"lz4"` is parsed with feature `lz` only, not `lz_pure` |
| C51 | `lz_pure` writes one frame per `write` and reads one frame: longer chunks cannot be read |
| C53, C61 | the `BufWriter` is dropped without `flush`: up to 8192 bytes that do not fit are lost and Ok is returned, by `write_chunk`, `create_array`, `create_group`, `set_attributes` (whose old document is then gone too, `C61_violated_attributes`) and `open_or_create` (`C61_violated_entry`: nobody can open that hierarchy); encoders are dropped without `finish`: all they write then can be lost (`C53_violated_large`) |
| C56 | `effective_type` is `todo!()` for an extended type without fallback |
| C57 | sums and products near 2^64, `as u32` and `as isize` casts; in release builds the union of a box past 2^64 with another need not contain it |
| C59 | `write_chunk` has no bounds check, `read_chunk` asserts it |
| C84 | as in C07: `write_ndarray` with another element type over a whole chunk returns an error and the chunk is unreadable; `C84_violated_always`: so for every array and box, whenever the first chunk is inside the box or not stored |
| C87 | `exists` and `is_file` take every error for "no": a stored chunk whose stat fails is absent for `read_chunk`, and `write_ndarray` overwrites its other elements with the fill value and returns Ok; `create_group` makes a group where there is an array; `array_exists` returns false for every error; `delete_chunk` returns `Ok(true)` and the chunk is still there if both of its stats fail; errors on drop of the `BufWriter` are ignored; `remove` returns Ok and leaves a document or the chunks if the stat before the removal fails; `list_nodes` leaves out nodes whose entry cannot be looked at |
| C89 | nothing limits the depth of attributes: with 127 nested levels `set_attributes` returns Ok and the node can no longer be read, nor repaired; `create_array` alike |
| C90 | `remove_all` is `remove("")`: the chunks of all arrays are deleted, the documents of all nodes but the root stay, so the arrays exist and read as fill values |
| C91 | the test for an implicit group asks whether the path of the directory is a file: `get_attributes` of an implicit group is `NotFound` |
| C92, C66 | metadata written as a JSON array of its fields is accepted (serde's sequence form of a struct) by `get_array_metadata`, but `list_attributes` says it has no attributes and `set_attributes` fails |
| C101 | `remove` erases the prefix `/data/root/a`, without a slash at its end: on a store that takes prefixes as strings, as the documentation of the traits says, the chunks of `ab` are erased too; `list_nodes` asks for `/meta/root/a` and gets what follows `a` in the keys, not the nodes below it |
| C102 | nothing checks the configurations of bzip2 and xz: documents with block size 0 or above 9, or a preset above 9 or below 0, are accepted; every `write_chunk` panics and leaves the chunk's file empty (`// TODO: check that preset is non-negative` in xz.rs); `C102_violated_always`: so for every refused configuration, whatever the array and the chunk |
| C104 | the data directory of a node is a symbolic link: `remove` deletes the metadata and the link and then fails with NotFound at the first name that it read behind the link, the chunks stay (`Links.C104_violated_always`: for every such node whose directory is not empty); a link that goes through the directory that is removed and up again is broken, and the node behind it lost |
| C105 | a chunk of `2 ^ 32` elements is read as an empty chunk (chunk.rs:277, `as u32`), and `as_ndarray` and `into_ndarray` of it panic; `C105_violated_always`: the views of a chunk that was read panic exactly for arrays whose chunks have `2 ^ 32` elements or more |
| C108 | `list_nodes` of a group below which no node was created fails with NotFound (`read_dir` of a directory that is not there); directories of the metadata tree are never removed, so the names on the way to removed nodes are listed for ever; the names of children that are nodes are cut (C42); with a suffix that does not begin with a dot no document is recognised. `C108_violated_always`: the first of these happens in every hierarchy, for every new group at an ordinary path |
| C110 | `write_ndarray` writes whole chunks: elements of the given array that lie outside the shape, but in a chunk that begins inside it, are stored, and show once the array is used with a larger shape; `C110_violated_always`: every such element that is not the fill value does |
| C112 | `open_or_create` of `x/../n` where there is no `x` does not see the hierarchy `n` (`exists` fails on the way), makes `x`, and writes the default document over the beginning of the `zarr.json` of `n`; if that was longer, nobody can open `n` any more |
| C118 | A `get` that meets the first `set` of a key returns an empty value, one that meets an `erase` fails with `NotFound`, and so does a second `erase`; an `erase` that meets a `set` returns `false` although it removed the value. Everything else about concurrent calls of one key is linearizable (`C118_partial`): a call has such a result only if there is no value at its place in the sequence (`erase`: any) |
| C120 | `list_nodes` takes the length of the key, spelling included, into account: in a release build, with a metadata suffix of 13 bytes such as `.zarr.v3.json`, listing the root as `""` gives a wrong entry and listing it as `"."` panics |
| C121 | `write_ndarray` drops a `BufWriter` without `flush` for each chunk: with chunk files below 8192 bytes it says Ok whatever room there is, and the chunks that did not fit cannot be read afterwards |

## 7. Wrong programs

`seeded/LOG.jsonl` has a line for each edit of the model that was tried in a scratch copy: the definition,
the edit, the claim it breaks, the theorems that failed, and the theorems tightened because one did not.
An edit that repairs a defect of section 6 must break the corresponding `Cxx_violated`.

## 8. Checking

`cd lean && lake build`. Then `tools/gen_axioms.py` regenerates section 9, `tools/gen_manifest.py` checks
that every theorem in the manifest exists.

`lean/Verif/Conformance.lean` runs the repository's own tests on the model: the unit tests of `tests.rs`,
`store/filesystem.rs`, `data_type.rs` and `ndarray.rs`, the documentation tests, `tests/integration_test.rs`
(dimensions 1 and 2), `tests/ndarray.rs` (smaller arrays) and `tests/zarrita_compat.rs` on the very data files
of the repository, with a table for the gzip codec. These are tests that the model does what the code does; no
property rests on them.

## 9. Axioms of each theorem

* `Classical.choice, Quot.sound, propext` (218): C01, C03, C04_exact, C05, C06_violated, C06_exact, C07_partial, C07_violated, C07_exact, C09_partial, C09_violated, C09_exact, C10, C12_partial, C12_exact, C13_partial, C13_exact, C14_partial, C14_exact, C15_partial, C15_exact, C16_partial, C16_exact, C17_partial, C17_exact, C18, C19, C20, C21, C22, C23, C25, C26_partial, C26_exact, C27_partial, C27_partial_values, C27_exact, C31_partial, C31_exact, C31_exact_iff, C32, C34, C36, C37, C38_partial, C38_exact, C39_partial, C39_exact, C40, C40_ndarray, C41_partial, C41_store_partial, C41_exact, C41_violated_always, C41_partial_up, C41_partial_ndarray, C42_partial, C42_exact, C43_partial, C43_violated_always, C44, C45_partial, C45_violated, C45_exact, C45_exact_text, C45_runs, C46, Locks.C47_partial, Threads.C47_violated_chunk, Threads.C47_violated_array, C49, C49_used, C51_partial, C53_violated, C53_violated_large, C54, C56_exact, C57_partial, C59_partial, C59_exact, C60_partial, C60_exact, C61_partial_after, C61_violated_entry, Locks.C62_concurrentWriters, Locks.C63_noDeadlock, C64, C65, C66_read, C66_partial, C66_violated, C66_entry, C66_exact, C67, C68_read, C68_write, C68_fresh, C69, C69_list, C70, C71, C71_runs_remove, C71_every_point, C72_partial, C72_violated, C72_exact, C72_exact_text, C72_exact_attributes, Spec.Uncuttable.objects, C73_partial, C73_violated_always, C74, Threads.C75, Threads.C76, Threads.C77_partial, Threads.C77_partial_shared, Threads.C77_violated_always, Threads.C78_partial, Threads.C78_violated_always, Threads.C79, Threads.C80, C81, C82, C83, C84_partial, C84_violated_always, C85, C85_errors, C86, C86_elements, Threads.C87_partial, Wide.C87_partial_remove, Wide.C87_partial_listNodes, Threads.C87_violated_read_always, Threads.C87_violated_delete_always, Threads.C87_violated_exists_always, Threads.C87_violated_group_always, Threads.C87_violated_drop_always, Threads.C87_violated_write_always, Wide.C87_violated_remove_always, Wide.C87_violated_listing_always, Threads.C88, Threads.C88_arrayExists, Wide.C88_remove, Wide.C88_listNodes, C90_partial, C90_violated_always, C91_partial, C91_violated_always, C92_partial, C92_violated_always, Wide.C93, Wide.C94, Wide.C95_remove, Wide.C95_listNodes, C96, C96_history, C96_open, C97_nodes, C97_chunks, C97_boxes, C97_open, Opens.C98_violated, Opens.C98_partial, Opens.C98_partial_text, Opens.C98_violated_always, Links.C99, Links.C99_reads, Links.C99_open, Any.C100, Any.C101_violated_always, Any.C101_partial, C102_partial, C102_violated_always, Wide.C103, Links.C104_partial, Links.C104_spares, Links.C104_violated, Links.C104_violated_through, Links.C104_violated_always, C105_partial, C105_violated_always, C106, C106_unknown, C107, C107_rounds, C108_partial, C108_undotted, C108_violated_always, Any.C109, C110_partial, C110_exact, C110_violated, C110_violated_always, C112_partial, C112_partial_others, C112_violated, C113, C113_history, C114, C115, Threads.C116, Threads.C116_elements, Locks.C117, Locks.C118_partial, Locks.C118_partial_kept, Locks.C118_partial_alone, Locks.timed_of_reach, Locks.C119, C120_partial, C120_partial_list, C120_names, C121_partial, C121_partial_compressed, C121_violated, C121_violated_compressed, C122, C122_raw
* `Quot.sound, propext` (57): C02, C04_partial, C08, C11, C12_violated, C13_violated, C16_violated, C24, C28_partial, C28_exact, C29_violated, C29_exact, C30_partial, C33, C33_attribute, C35, C35_nothing, C39_violated, C42_sorted, openOrCreateStates_ends, C46_every, C46_runs, C48_partial, C48_violated, setAttributes_steps, C48_exact, C50_partial, C50_exact, C51_violated, C52, C53_partial, C53_partial_builtin, C53_partial_compressed, C53_violated_compressed, C53_partial_cut, C55, C56_partial, copyChunk_round, C58_ndarray, C61_partial, C61_partial_room, C61_violated, C61_violated_group, C61_violated_attributes, C61_partial_cut, C71_runs, Threads.C79_progress, C89_partial, C89_violated_always, dedup_last, Threads.C95, Any.C101_violated, C105_exact, C108_violated_claim, C111, Wide.C114_needed, Locks.C118_violated
* no axioms (1): C50_violated
* `propext` (48): C04_violated, C06_partial, C14_violated, C15_violated, C17_violated, C26_violated, C27_violated, C28_violated, C29_partial, C30_violated, C31_violated, C36_any, noBoth_fresh, C38_violated, C41_violated, C42_violated, C43_violated, setStates_ends, Locks.C47_violated, C56_violated, C57_violated, C58, C59_violated, C60_violated, C66_violated_form, C73_violated, Threads.C77_violated, Threads.C77_violated_attributes, Wide.C77_violated_removal, Threads.C78_violated, C84_violated, Threads.C87_violated, Threads.C87_violated_write, Threads.C87_violated_group, Threads.C87_violated_drop, Threads.C87_violated_arrayExists, Wide.C87_violated_remove, Wide.C87_violated_listing, C89_violated, C90_violated, C91_violated, C92_violated, C102_named, C102_violated, C105_violated, C108_violated, Wide.C113_needed, C120_violated
