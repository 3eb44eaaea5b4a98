{
 "claims": [
  {
   "property": "C01",
   "status": "proved",
   "theorems": [
    "Zarr.C01"
   ],
   "note": "all paths, types, byte orders, lawful codecs, prior states"
  },
  {
   "property": "C02",
   "status": "proved",
   "theorems": [
    "Zarr.C02"
   ],
   "note": "independent byte layout in Spec/Layout.lean"
  },
  {
   "property": "C03",
   "status": "proved",
   "theorems": [
    "Zarr.C03"
   ],
   "note": "any GoodSep separator, plain paths"
  },
  {
   "property": "C04",
   "status": "partial",
   "theorems": [
    "Zarr.C04_partial",
    "Zarr.C04_violated",
    "Zarr.C04_exact"
   ],
   "note": "false for separators that are empty, digits or '/c...': witness; injective for separators without digits at the start and without '/', and for '/'; within one array of two or more dimensions C04_exact: injective if the separator has a character that is not a digit, and not if it is at most 17 digits"
  },
  {
   "property": "C05",
   "status": "proved",
   "theorems": [
    "Zarr.C05"
   ],
   "note": "induction over histories"
  },
  {
   "property": "C06",
   "status": "partial",
   "theorems": [
    "Zarr.C06_partial",
    "Zarr.C06_violated",
    "Zarr.C06_exact"
   ],
   "note": "false when a directory occupies the chunk's location; proved otherwise; C06_exact: the result and effect by what is at the location, an error exactly for a directory"
  },
  {
   "property": "C07",
   "status": "partial",
   "theorems": [
    "Zarr.C07_partial",
    "Zarr.C07_violated",
    "Zarr.C07_exact"
   ],
   "note": "false: the file is truncated before the checks; other chunks survive and the chunk itself survives errors before the truncation; C07_exact: what is stored after every error"
  },
  {
   "property": "C08",
   "status": "proved",
   "theorems": [
    "Zarr.C08"
   ],
   "note": ""
  },
  {
   "property": "C09",
   "status": "partial",
   "theorems": [
    "Zarr.C09_partial",
    "Zarr.C09_violated",
    "Zarr.C09_exact"
   ],
   "note": "false for lengths at or above 2^32 (count cast to u32); C09_exact: for a compressor that does not fail, which writes succeed, for all lengths"
  },
  {
   "property": "C10",
   "status": "proved",
   "theorems": [
    "Zarr.C10"
   ],
   "note": "chunk shapes below 2^32 elements"
  },
  {
   "property": "C11",
   "status": "proved",
   "theorems": [
    "Zarr.C11"
   ],
   "note": ""
  },
  {
   "property": "C12",
   "status": "partial",
   "theorems": [
    "Zarr.C12_partial",
    "Zarr.C12_violated",
    "Zarr.C12_exact"
   ],
   "note": "equals ceil except +1 when shape % chunk = chunk-1 (C12_partial); so the claim holds for an array exactly if no length is one short of a multiple of its chunk size (C12_exact); C12_violated is the witness"
  },
  {
   "property": "C13",
   "status": "partial",
   "theorems": [
    "Zarr.C13_partial",
    "Zarr.C13_exact",
    "Zarr.C13_violated"
   ],
   "note": "complete; exact unless a dimension is one short of a multiple of its chunk size; C13_violated; C13_exact: exactly which positions are in bounds"
  },
  {
   "property": "C14",
   "status": "partial",
   "theorems": [
    "Zarr.C14_partial",
    "Zarr.C14_exact",
    "Zarr.C14_violated"
   ],
   "note": "equal unless a dimension is one short of a multiple; C14_violated; C14_exact: exactly which number is returned"
  },
  {
   "property": "C15",
   "status": "partial",
   "theorems": [
    "Zarr.C15_partial",
    "Zarr.C15_violated",
    "Zarr.C15_exact"
   ],
   "note": "all arrays with at least one dimension; C15_violated for none; C15_exact: what is yielded for every array, also without dimensions"
  },
  {
   "property": "C16",
   "status": "partial",
   "theorems": [
    "Zarr.C16_partial",
    "Zarr.C16_violated",
    "Zarr.C16_exact"
   ],
   "note": "exact when box and array share a point; C16_violated otherwise; C16_exact says what is yielded for every box"
  },
  {
   "property": "C17",
   "status": "partial",
   "theorems": [
    "Zarr.C17_partial",
    "Zarr.C17_violated",
    "Zarr.C17_exact"
   ],
   "note": "up to exhaustion, at least one dimension; C17_violated after it; C17_exact: what len() answers after any number of calls, also past the end and without dimensions"
  },
  {
   "property": "C18",
   "status": "proved",
   "theorems": [
    "Zarr.C18"
   ],
   "note": ""
  },
  {
   "property": "C19",
   "status": "proved",
   "theorems": [
    "Zarr.C19"
   ],
   "note": ""
  },
  {
   "property": "C20",
   "status": "proved",
   "theorems": [
    "Zarr.C20"
   ],
   "note": "for boxes built by BoundingBox::new and arrays with at least one dimension"
  },
  {
   "property": "C21",
   "status": "proved",
   "theorems": [
    "Zarr.C21"
   ],
   "note": "at least one dimension; lawful compressor; includes that the read returns Ok"
  },
  {
   "property": "C22",
   "status": "proved",
   "theorems": [
    "Zarr.C22"
   ],
   "note": "at least one dimension; for every box that could be read before"
  },
  {
   "property": "C23",
   "status": "proved",
   "theorems": [
    "Zarr.C23"
   ],
   "note": "induction over histories"
  },
  {
   "property": "C24",
   "status": "proved",
   "theorems": [
    "Zarr.C24"
   ],
   "note": ""
  },
  {
   "property": "C25",
   "status": "proved",
   "theorems": [
    "Zarr.C25"
   ],
   "note": "also that elements over stored chunks take the stored value"
  },
  {
   "property": "C26",
   "status": "partial",
   "theorems": [
    "Zarr.C26_partial",
    "Zarr.C26_violated",
    "Zarr.C26_exact"
   ],
   "note": "false: panics for boxes beyond the array at unaligned offsets (C26_violated); proved for boxes that start inside the array and for aligned ones; C26_exact says exactly which boxes panic"
  },
  {
   "property": "C27",
   "status": "partial",
   "theorems": [
    "Zarr.C27_partial",
    "Zarr.C27_partial_values",
    "Zarr.C27_exact",
    "Zarr.C27_violated"
   ],
   "note": "false at unaligned offsets (C27_violated): stores a chunk of fill values; proved at aligned offsets, and no element changes at any offset; C27_exact: the effect on every chunk"
  },
  {
   "property": "C28",
   "status": "partial",
   "theorems": [
    "Zarr.C28_partial",
    "Zarr.C28_violated",
    "Zarr.C28_exact"
   ],
   "note": "false: the element is dropped (C28_violated); C28_partial says what happens instead; C28_exact: it is read back exactly if it is the fill value"
  },
  {
   "property": "C29",
   "status": "partial",
   "theorems": [
    "Zarr.C29_partial",
    "Zarr.C29_violated",
    "Zarr.C29_exact"
   ],
   "note": "see the witnesses; the exact class of types that round-trip is proved; C29_exact: exactly which data types are read back"
  },
  {
   "property": "C30",
   "status": "partial",
   "theorems": [
    "Zarr.C30_partial",
    "Zarr.C30_violated"
   ],
   "note": "false for some strings; the exact set of accepted strings is proved"
  },
  {
   "property": "C31",
   "status": "partial",
   "theorems": [
    "Zarr.C31_partial",
    "Zarr.C31_violated",
    "Zarr.C31_exact",
    "Zarr.C31_exact_iff"
   ],
   "note": "false for metadata whose data type or fill value is not faithfully serialised (C31_violated); proved for Spec.Faithful metadata at any path. C31_exact: the exact result for all metadata, C31_exact_iff: it is the given metadata exactly if that is Faithful"
  },
  {
   "property": "C32",
   "status": "proved",
   "theorems": [
    "Zarr.C32"
   ],
   "note": "paths without '..'; both get_array_metadata and open"
  },
  {
   "property": "C33",
   "status": "proved",
   "theorems": [
    "Zarr.C33",
    "Zarr.C33_attribute"
   ],
   "note": "any path; attributes nested at most 126 deep (C89 for others) whose floats the JSON library reads back; C33_attribute is set_attribute"
  },
  {
   "property": "C34",
   "status": "proved",
   "theorems": [
    "Zarr.C34"
   ],
   "note": "any path; attributes nested at most 126 deep (C89 for others) whose floats the JSON library reads back"
  },
  {
   "property": "C35",
   "status": "proved",
   "theorems": [
    "Zarr.C35",
    "Zarr.C35_nothing"
   ],
   "note": "any path; attributes nested at most 126 deep (C89 for others) whose floats the JSON library reads back; C35_nothing: the second call writes nothing, at the level of system calls"
  },
  {
   "property": "C36",
   "status": "proved",
   "theorems": [
    "Zarr.C36",
    "Zarr.C36_any"
   ],
   "note": "C36: paths without '..', existence by documents; C36_any: all paths"
  },
  {
   "property": "C37",
   "status": "proved",
   "theorems": [
    "Zarr.C37",
    "Zarr.noBoth_fresh"
   ],
   "note": "every history of calls, failing ones included"
  },
  {
   "property": "C38",
   "status": "partial",
   "theorems": [
    "Zarr.C38_partial",
    "Zarr.C38_violated",
    "Zarr.C38_exact"
   ],
   "note": "false: documents of descendants survive; node's documents and all chunks at and below it are gone; C38_exact: the documents of every other node, also of those below, are as they were"
  },
  {
   "property": "C39",
   "status": "partial",
   "theorems": [
    "Zarr.C39_partial",
    "Zarr.C39_exact",
    "Zarr.C39_violated"
   ],
   "note": "false: remove(a/c1) deletes chunk 1 of array a; proved otherwise; C39_exact: the effect on every chunk"
  },
  {
   "property": "C40",
   "status": "proved",
   "theorems": [
    "Zarr.C40",
    "Zarr.C40_ndarray"
   ],
   "note": "every call, every path"
  },
  {
   "property": "C41",
   "status": "partial",
   "theorems": [
    "Zarr.C41_partial",
    "Zarr.C41_store_partial",
    "Zarr.C41_violated",
    "Zarr.C41_exact",
    "Zarr.C41_violated_always",
    "Zarr.C41_partial_up",
    "Zarr.C41_partial_ndarray"
   ],
   "note": "false: create_group(../../../x) writes outside the base, and there are such paths for every base directory and every directory deep enough (C41_violated_always); C41_exact: for every key, exactly when each store call stays inside; all hierarchy calls on paths without .. do, and all but remove on paths with .. that never go up more than the two levels between the root node and the base directory (C41_partial_up, C41_partial_ndarray)"
  },
  {
   "property": "C42",
   "status": "partial",
   "theorems": [
    "Zarr.C42_partial",
    "Zarr.C42_sorted",
    "Zarr.C42_exact",
    "Zarr.C42_violated"
   ],
   "note": "The claim is false for the code. The result is always sorted and duplicate-free, it is exact when no child has a document, and C42_exact gives the exact result (or panic) for every directory."
  },
  {
   "property": "C43",
   "status": "partial",
   "theorems": [
    "Zarr.C43_partial",
    "Zarr.C43_violated",
    "Zarr.C43_violated_always"
   ],
   "note": "false: list_dir omits the separator; proved for a directory prefix ending in / with empty subdirectories; list is an error on every hierarchy with a node other than the root"
  },
  {
   "property": "C44",
   "status": "proved",
   "theorems": [
    "Zarr.C44"
   ],
   "note": "hypotheses: base path without .., serde_json's law; creating needs the directory to be creatable"
  },
  {
   "property": "C45",
   "status": "partial",
   "theorems": [
    "Zarr.C45_partial",
    "Zarr.C45_violated",
    "Zarr.C45_exact",
    "Zarr.C45_exact_text",
    "Zarr.openOrCreateStates_ends",
    "Zarr.C45_runs"
   ],
   "note": "C45_partial: every interrupted creation is recoverable unless the entry point file holds a proper prefix of its document. C45_violated: every creation passes through such a state (empty file), from which open_or_create fails forever. C45_exact: none of the states with a proper prefix is recoverable, provided serde_json reads no proper prefix of the document; C45_exact_text: for the concrete text form this is proved"
  },
  {
   "property": "C46",
   "status": "proved",
   "theorems": [
    "Zarr.C46",
    "Zarr.C46_every",
    "Zarr.setStates_ends",
    "Zarr.C46_runs"
   ],
   "note": "process death at any point between system calls or after any byte; power loss not modelled"
  },
  {
   "property": "C47",
   "status": "partial",
   "theorems": [
    "Zarr.Locks.C47_partial",
    "Zarr.Locks.C47_violated",
    "Zarr.Threads.C47_violated_chunk",
    "Zarr.Threads.C47_violated_array"
   ],
   "note": "Proved for any number of threads and any interleaving of get/set/erase system calls on one key: a read returns nothing, the first value, a completely written value, or an empty value of a file just created; without erasures it returns the value of the set that ended last. Missing: the empty value, which the code really returns (C47_violated: set creates the file before it takes the lock). C47_violated_chunk and C47_violated_array: so for every chunk with elements that is not there yet and for every array that is created; some interleaving makes a concurrent read_chunk or get_array_metadata fail although the write returns Ok."
  },
  {
   "property": "C48",
   "status": "partial",
   "theorems": [
    "Zarr.C48_partial",
    "Zarr.C48_violated",
    "Zarr.setAttributes_steps",
    "Zarr.C48_exact"
   ],
   "note": "calls one after the other keep both updates; whenever the reads precede both writes, the earlier write is lost without a trace (for all documents and attributes); C48_exact: all overlapping orders lose the update of the call that writes first"
  },
  {
   "property": "C49",
   "status": "proved",
   "theorems": [
    "Zarr.C49",
    "Zarr.C49_used"
   ],
   "note": "C49: the numbers. C49_used: the file of a chunk holds what the compression library makes of its bytes with the configured block size, level or preset, so these numbers are the ones used."
  },
  {
   "property": "C50",
   "status": "partial",
   "theorems": [
    "Zarr.C50_partial",
    "Zarr.C50_violated",
    "Zarr.C50_exact"
   ],
   "note": "false: \"lz4\" parses only with feature lz; C50_exact: exactly which names parse, and to what"
  },
  {
   "property": "C51",
   "status": "partial",
   "theorems": [
    "Zarr.C51_partial",
    "Zarr.C51_violated"
   ],
   "note": "false: only chunks handed over in one write call (bytes; one half float; up to 256 of the other types) read back; other lengths fail with unexpected end of file, empty chunks panic; all cases characterised for every lawful LZ4 library"
  },
  {
   "property": "C52",
   "status": "proved",
   "theorems": [
    "Zarr.C52"
   ],
   "note": ""
  },
  {
   "property": "C53",
   "status": "partial",
   "theorems": [
    "Zarr.C53_partial",
    "Zarr.C53_partial_builtin",
    "Zarr.C53_partial_compressed",
    "Zarr.C53_violated",
    "Zarr.C53_violated_compressed",
    "Zarr.C53_violated_large",
    "Zarr.C53_partial_cut"
   ],
   "note": "complete when it fits, with every compressor; after Ok at most 8192 bytes are missing of what was written before the encoder is dropped (raw, lz4: of everything); violated for every chunk that does not fit and of which the encoder writes less than 8192 bytes before the drop; C53_partial_cut: against an unlimited device only that file differs, cut off"
  },
  {
   "property": "C54",
   "status": "proved",
   "theorems": [
    "Zarr.C54"
   ],
   "note": ""
  },
  {
   "property": "C55",
   "status": "proved",
   "theorems": [
    "Zarr.C55"
   ],
   "note": ""
  },
  {
   "property": "C56",
   "status": "partial",
   "theorems": [
    "Zarr.C56_partial",
    "Zarr.C56_violated",
    "Zarr.C56_exact"
   ],
   "note": "false: effective_type panics (todo!) for an extended type without fallback; C56_exact: what every read and write does with an extension type without fallback"
  },
  {
   "property": "C57",
   "status": "partial",
   "theorems": [
    "Zarr.C57_partial",
    "Zarr.C57_violated",
    "Zarr.copyChunk_round"
   ],
   "note": "agreement with the mathematical value when extents plus chunk sizes (and request ends plus chunk sizes) are below 2^64, products counted with zeros as one are below 2^64, requests below 2^63 and chunk sizes below 2^32 per axis; violated outside (extent 2^64-1, empty axis, boxes past 2^64, chunks of 2^32 elements)"
  },
  {
   "property": "C58",
   "status": "proved",
   "theorems": [
    "Zarr.C58",
    "Zarr.C58_ndarray"
   ],
   "note": ""
  },
  {
   "property": "C59",
   "status": "partial",
   "theorems": [
    "Zarr.C59_partial",
    "Zarr.C59_violated",
    "Zarr.C59_exact"
   ],
   "note": "false: write_chunk has no bounds check, read_chunk asserts it; C59_exact: what reading an accepted chunk answers in all cases"
  },
  {
   "property": "C60",
   "status": "partial",
   "theorems": [
    "Zarr.C60_partial",
    "Zarr.C60_violated",
    "Zarr.C60_exact"
   ],
   "note": "false: exists(\"x.array.json\") becomes true when x is created; everything else proved; C60_exact: the exact effect of creating and removing other nodes on exists"
  },
  {
   "property": "C61",
   "status": "partial",
   "theorems": [
    "Zarr.C61_partial",
    "Zarr.C61_partial_room",
    "Zarr.C61_partial_after",
    "Zarr.C61_violated",
    "Zarr.C61_violated_group",
    "Zarr.C61_violated_attributes",
    "Zarr.C61_violated_entry",
    "Zarr.C61_partial_cut"
   ],
   "note": "as on an unlimited device when the document fits; if Ok is returned the file holds what fitted and at most 8192 bytes are missing (C61_partial_after); every document below 8192 bytes that does not fit is reported as written, by create_array, create_group and set_attributes at every node and by open_or_create in every directory (C61_violated*); C61_partial_cut: create_array, create_group and set_attributes do what they do on an unlimited device except that the document is cut off after the bytes that fit"
  },
  {
   "property": "C62",
   "status": "proved",
   "theorems": [
    "Zarr.Locks.C62_concurrentWriters"
   ],
   "note": "Any number of threads and any interleaving; assumes closures succeed, parent directory exists, nobody dies."
  },
  {
   "property": "C63",
   "status": "proved",
   "theorems": [
    "Zarr.Locks.C63_noDeadlock"
   ],
   "note": "Single key; a reader reads to the end and closes the file."
  },
  {
   "property": "C64",
   "status": "proved",
   "theorems": [
    "Zarr.C64"
   ],
   "note": "independent number format (Spec.numBytes)"
  },
  {
   "property": "C65",
   "status": "proved",
   "theorems": [
    "Zarr.C65"
   ],
   "note": "independent locations with Nat.toDigits; paths without '..', separator '/' or without '/', metadata suffix without '/'"
  },
  {
   "property": "C66",
   "status": "partial",
   "theorems": [
    "Zarr.C66_read",
    "Zarr.C66_partial",
    "Zarr.C66_violated",
    "Zarr.C66_violated_form",
    "Zarr.C66_entry",
    "Zarr.C66_exact"
   ],
   "note": "C66_read: reading, both directions, against an independent document format (Spec/Documents.lean), which includes serde's sequence form of structs. C66_violated_form: so a document need not be an object. C66_partial: create_array and create_group for metadata that serialise faithfully. C66_violated: raw types are written as a document nobody can read. C66_entry: entry point; C66_exact: what the document of any new array describes"
  },
  {
   "property": "C67",
   "status": "proved",
   "theorems": [
    "Zarr.C67"
   ],
   "note": "hypotheses: well-formed tree, plain base and path, suffix without '/', raw sizes below 2^64 (usize)"
  },
  {
   "property": "C68",
   "status": "proved",
   "theorems": [
    "Zarr.C68_read",
    "Zarr.C68_write",
    "Zarr.C68_fresh"
   ],
   "note": "C68_write assumes a lawful compressor that accepts all data; C68_fresh is unconditional on the store's contents"
  },
  {
   "property": "C69",
   "status": "proved",
   "theorems": [
    "Zarr.C69",
    "Zarr.C69_list"
   ],
   "note": "The loop of list_prefix ends for every tree: each directory visited has a longer path text than its parent."
  },
  {
   "property": "C70",
   "status": "proved",
   "theorems": [
    "Zarr.C70"
   ],
   "note": "For directories without a hierarchy at the start; names that look like document or chunk files are excluded because the code lets them collide (C06, C39, C60)."
  },
  {
   "property": "C71",
   "status": "proved",
   "theorems": [
    "Zarr.C71",
    "Zarr.C71_runs",
    "Zarr.C71_runs_remove",
    "Zarr.C71_every_point"
   ],
   "note": "the states are exactly those of the runs of the small-step model for the calls that write or delete one file (C71_runs); for remove they include all of them (C71_runs_remove)"
  },
  {
   "property": "C72",
   "status": "partial",
   "theorems": [
    "Zarr.C72_partial",
    "Zarr.C72_violated",
    "Zarr.C72_exact",
    "Zarr.C72_exact_text",
    "Zarr.C72_exact_attributes",
    "Zarr.Spec.Uncuttable.objects"
   ],
   "note": "remove, write_chunk and delete_chunk can be repeated, and every call if the crash came before a file changed. create_group, create_array and set_attributes cannot: C72_violated, for every state in which they write. C72_exact, C72_exact_attributes: every crash inside a creation or set_attributes leaves the files as they were, the complete document, or a node that is lost, provided serde_json reads no proper prefix of the document; C72_exact_text: for the concrete text form this is proved"
  },
  {
   "property": "C73",
   "status": "partial",
   "theorems": [
    "Zarr.C73_partial",
    "Zarr.C73_violated",
    "Zarr.C73_violated_always"
   ],
   "note": "holds for remove and delete_chunk; a write truncates the file first, so a chunk or document can be lost: C73_violated, C72_violated. C71 has what holds for writes: old content or a prefix of the new. C73_violated_always: every successful write_chunk of a chunk with elements has a crash state in which the chunk cannot be read."
  },
  {
   "property": "C74",
   "status": "proved",
   "theorems": [
    "Zarr.C74"
   ],
   "note": ""
  },
  {
   "property": "C75",
   "status": "proved",
   "theorems": [
    "Zarr.Threads.C75"
   ],
   "note": "Any programs of store calls; system calls interleaved one by one. erase_prefix and listings have no small steps."
  },
  {
   "property": "C76",
   "status": "proved",
   "theorems": [
    "Zarr.Threads.C76"
   ],
   "note": "All calls of C70 except remove."
  },
  {
   "property": "C77",
   "status": "partial",
   "theorems": [
    "Zarr.Threads.C77_partial",
    "Zarr.Threads.C77_partial_shared",
    "Zarr.Threads.C77_violated",
    "Zarr.Threads.C77_violated_attributes",
    "Zarr.Threads.C77_violated_always",
    "Zarr.Wide.C77_violated_removal"
   ],
   "note": "Violated: create_group and create_array race, set_attributes loses updates, remove and write_chunk or two removals disturb each other. C77_violated_always: create_group and create_array can both succeed at every path where there is no node and each would succeed alone. C77_partial: holds when no thread makes a call about a node or chunk that another changes, for any filesystem and any results (with removal and listing: C93). C77_partial_shared: holds also when threads write and read the same stored chunk, and when one thread sets the attributes of an existing node that others look at."
  },
  {
   "property": "C78",
   "status": "partial",
   "theorems": [
    "Zarr.Threads.C78_partial",
    "Zarr.Threads.C78_violated",
    "Zarr.Threads.C78_violated_always"
   ],
   "note": "Violated when disjoint boxes share a chunk. Holds when no chunk meets both a written box and a box of another thread. C78_violated_always: for every array and every box in a part of one chunk there is an interleaving with any other box write in which both return Ok and nothing the other call wrote to that chunk remains."
  },
  {
   "property": "C79",
   "status": "proved",
   "theorems": [
    "Zarr.Threads.C79"
   ],
   "note": "Linearization: marks between begin and end of each store call; the run with whole calls in the order of the marks agrees with the interleaved run at every prefix. Creation and erasure only of files nobody else uses (otherwise C47 is violated)."
  },
  {
   "property": "C80",
   "status": "proved",
   "theorems": [
    "Zarr.Threads.C80",
    "Zarr.Threads.C79_progress"
   ],
   "note": "For all programs of store calls and all filesystems. In the model an open file belongs to its location, so a file that is erased while open is not followed."
  },
  {
   "property": "C81",
   "status": "proved",
   "theorems": [
    "Zarr.C81"
   ],
   "note": "Histories of the calls of C70 and of box reads and writes from a directory without a hierarchy; boxes that share a point with the array (for others see C12 and C16)."
  },
  {
   "property": "C82",
   "status": "proved",
   "theorems": [
    "Zarr.C82"
   ],
   "note": "Any sequence of openings and calls of C81 on a fresh directory; the frame condition for all calls with paths without .. and any separator that keeps chunk keys apart."
  },
  {
   "property": "C83",
   "status": "proved",
   "theorems": [
    "Zarr.C83"
   ],
   "note": "All shapes, element types and compressors that are compiled in. The metadata is read back exactly except for one-byte integers on a big-endian machine, where the stored name has no byte order (C31_violated)."
  },
  {
   "property": "C84",
   "status": "partial",
   "theorems": [
    "Zarr.C84_partial",
    "Zarr.C84_violated",
    "Zarr.C84_violated_always"
   ],
   "note": "false for an element type that is not the array's (C84_violated; C84_violated_always: for every array, box and other type, the first chunk that the box covers or that is not stored is replaced by an empty file); proved for the array's type, a lawful codec that does not fail, chunks of fewer than 2^32 elements and at least one dimension"
  },
  {
   "property": "C85",
   "status": "proved",
   "theorems": [
    "Zarr.C85",
    "Zarr.C85_errors"
   ],
   "note": "box with a point in the array; trees well-formed, separator that is / or starts with a non-digit and has no /"
  },
  {
   "property": "C86",
   "status": "proved",
   "theorems": [
    "Zarr.C86",
    "Zarr.C86_elements"
   ],
   "note": "histories of box reads inside the arrays, box writes that meet them, and removals; lawful codecs that do not fail"
  },
  {
   "property": "C87",
   "status": "partial",
   "theorems": [
    "Zarr.Threads.C87_partial",
    "Zarr.Wide.C87_partial_remove",
    "Zarr.Wide.C87_partial_listNodes",
    "Zarr.Threads.C87_violated",
    "Zarr.Threads.C87_violated_write",
    "Zarr.Threads.C87_violated_group",
    "Zarr.Threads.C87_violated_drop",
    "Zarr.Threads.C87_violated_arrayExists",
    "Zarr.Wide.C87_violated_remove",
    "Zarr.Wide.C87_violated_listing",
    "Zarr.Threads.C87_violated_read_always",
    "Zarr.Threads.C87_violated_delete_always",
    "Zarr.Threads.C87_violated_exists_always",
    "Zarr.Threads.C87_violated_group_always",
    "Zarr.Threads.C87_violated_drop_always",
    "Zarr.Threads.C87_violated_write_always",
    "Zarr.Wide.C87_violated_remove_always",
    "Zarr.Wide.C87_violated_listing_always"
   ],
   "note": "false if the call that checks for existence fails (also in remove), a look at an entry in list_nodes, a write on drop of the buffer, and for array_exists (C87_violated*); proved for all other failures of all calls; C87_violated_*_always: in every array and at every node"
  },
  {
   "property": "C88",
   "status": "proved",
   "theorems": [
    "Zarr.Threads.C88",
    "Zarr.Threads.C88_arrayExists",
    "Zarr.Wide.C88_remove",
    "Zarr.Wide.C88_listNodes"
   ],
   "note": "all calls; box that meets the array for write_ndarray; ordinary names"
  },
  {
   "property": "C89",
   "status": "partial",
   "theorems": [
    "Zarr.C89_partial",
    "Zarr.C89_violated",
    "Zarr.C89_violated_always"
   ],
   "note": "false for attributes nested more than 126 deep: for all of them the node is unreadable after Ok (C89_violated_always); proved for all others"
  },
  {
   "property": "C90",
   "status": "partial",
   "theorems": [
    "Zarr.C90_partial",
    "Zarr.C90_violated",
    "Zarr.C90_violated_always"
   ],
   "note": "false: every node but the root survives (C90_violated_always); proved: exact result of the call, chunks gone, rest unchanged, no node left if the root was the only one"
  },
  {
   "property": "C91",
   "status": "partial",
   "theorems": [
    "Zarr.C91_partial",
    "Zarr.C91_violated",
    "Zarr.C91_violated_always"
   ],
   "note": "false for every implicit group (C91_violated_always); proved: the exact result for array and group keys"
  },
  {
   "property": "C92",
   "status": "partial",
   "theorems": [
    "Zarr.C92_partial",
    "Zarr.C92_violated_always",
    "Zarr.C92_violated",
    "Zarr.dedup_last"
   ],
   "note": "C92_partial: for documents that are JSON objects. C92_violated_always, C92_violated: for documents in serde's sequence form list_attributes returns no attributes. dedup_last says what reading to a Value does with repeated members"
  },
  {
   "property": "C93",
   "status": "proved",
   "theorems": [
    "Zarr.Wide.C93"
   ],
   "note": "All calls of the model of a hierarchy (documents, attributes, chunks, boxes, remove, list_nodes), any results. Conclusions about the end: results, and all files (empty directories are not compared)."
  },
  {
   "property": "C94",
   "status": "proved",
   "theorems": [
    "Zarr.Wide.C94"
   ],
   "note": "one thread among arbitrary unrelated changes by other programs between its system calls"
  },
  {
   "property": "C95",
   "status": "proved",
   "theorems": [
    "Zarr.Threads.C95",
    "Zarr.Wide.C95_remove",
    "Zarr.Wide.C95_listNodes"
   ],
   "note": "C95 is about every program that calls the store, so every call but remove and list_nodes, which have their own; system calls repeated after EINTR count once"
  },
  {
   "property": "C96",
   "status": "proved",
   "theorems": [
    "Zarr.C96",
    "Zarr.C96_history",
    "Zarr.C96_open"
   ],
   "note": "For every API call with ordinary node paths (C96), every sequence of calls including recursive removal, listing and boxes (C96_history), and open / open_or_create (C96_open). Not part of the claim: get_chunk_uri, whose result contains the base path, and the order in which the store's own list and list_dir return names."
  },
  {
   "property": "C97",
   "status": "proved",
   "theorems": [
    "Zarr.C97_nodes",
    "Zarr.C97_chunks",
    "Zarr.C97_boxes",
    "Zarr.C97_open"
   ],
   "note": "Error kinds characterised for open, node calls, chunks and boxes. Errors of serde_json are a kind of their own in the model (InvalidData or UnexpectedEof in std). Chunk and box parts for raw arrays."
  },
  {
   "property": "C98",
   "status": "partial",
   "theorems": [
    "Zarr.Opens.C98_violated",
    "Zarr.Opens.C98_partial",
    "Zarr.Opens.C98_partial_text",
    "Zarr.Opens.C98_violated_always"
   ],
   "note": "The code violates it (C98_violated): open_or_create reads zarr.json without the lock while another call is still writing it, and fails. C98_partial proves the rest for every number of calls and every interleaving: only a beginning of the document is ever in the file, results are the hierarchy or an error of reading an incomplete document, no call is stuck, and in the end the hierarchy is there and one open_or_create has returned it. C98_partial_text is the same for JSON text, where the hypothesis that no beginning of the document can be read is proved. C98_violated_always: for every new base path and every set of calls with an open_or_create among them, each of the other calls fails in some interleaving."
  },
  {
   "property": "C99",
   "status": "proved",
   "theorems": [
    "Zarr.Links.C99",
    "Zarr.Links.C99_reads",
    "Zarr.Links.C99_open"
   ],
   "note": "Reading calls and open for every arrangement of links that are not broken; histories of all calls but remove for links that do not alias each other. What walkdir does with links when a tree is removed is outside the model."
  },
  {
   "property": "C100",
   "status": "proved",
   "theorems": [
    "Zarr.Any.C100"
   ],
   "note": "For every store that keeps values and erases prefixes name by name; the filesystem and a store in memory are instances."
  },
  {
   "property": "C101",
   "status": "partial",
   "theorems": [
    "Zarr.Any.C101_violated",
    "Zarr.Any.C101_violated_always",
    "Zarr.Any.C101_partial"
   ],
   "note": "False where a removed path begins another one as a string, and for list_nodes (C101_violated); C101_violated_always: for every two such paths, in every state, all chunks of the other array are lost; proved for all other histories."
  },
  {
   "property": "C102",
   "status": "partial",
   "theorems": [
    "Zarr.C102_partial",
    "Zarr.C102_named",
    "Zarr.C102_violated",
    "Zarr.C102_violated_always"
   ],
   "note": "violated: bzip2 and xz configurations that the libraries refuse are accepted from documents, and write_chunk panics; C102_violated_always: this happens for every refused configuration; proved: exactly the accepted configurations work, all others panic and leave the file empty"
  },
  {
   "property": "C103",
   "status": "proved",
   "theorems": [
    "Zarr.Wide.C103"
   ],
   "note": "All calls (also removal, listing and boxes), any number of threads, any schedule, any moment of death. The hypotheses are those of C93. Death of the process, not of the machine."
  },
  {
   "property": "C104",
   "status": "partial",
   "theorems": [
    "Zarr.Links.C104_partial",
    "Zarr.Links.C104_spares",
    "Zarr.Links.C104_violated",
    "Zarr.Links.C104_violated_through",
    "Zarr.Links.C104_violated_always"
   ],
   "note": "Holds when links go up only at their beginning and the data directory of the removed node is not itself a link; what links lead to is always kept (C104_spares). Counterexamples for both restrictions are proved: a linked data directory makes remove fail half way, a link through the removed directory breaks. C104_violated_always: removal of any node whose data directory is a link to a directory that is not empty fails after its metadata is deleted."
  },
  {
   "property": "C105",
   "status": "partial",
   "theorems": [
    "Zarr.C105_partial",
    "Zarr.C105_violated",
    "Zarr.C105_violated_always",
    "Zarr.C105_exact"
   ],
   "note": "Proved for chunks of fewer than 2^32 elements, with nonzero chunk sizes and at least one dimension; refuted for a chunk of 2^32 elements, which is read as an empty chunk whose views panic. C105_violated_always: the views of a chunk that was read panic exactly if a chunk has 2^32 elements or more. C105_exact says when the views of a chunk that the caller builds panic."
  },
  {
   "property": "C106",
   "status": "proved",
   "theorems": [
    "Zarr.C106",
    "Zarr.C106_unknown"
   ],
   "note": "Each call of the history is made in its own environment (byte order, features, compression libraries, overflow checks). The programs have the same JSON library and decompress what the others compress; C106_unknown describes a build that lacks a compressor."
  },
  {
   "property": "C107",
   "status": "proved",
   "theorems": [
    "Zarr.C107",
    "Zarr.C107_rounds"
   ],
   "note": "Each program is a thread with its own environment (byte order, features, compression libraries, overflow checks) making calls one after the other; a step of the system is one system call of one program. Programs keep to separate areas as in C93; C107_rounds repeats this any number of times."
  },
  {
   "property": "C108",
   "status": "partial",
   "theorems": [
    "Zarr.C108_partial",
    "Zarr.C108_undotted",
    "Zarr.C108_violated",
    "Zarr.C108_violated_claim",
    "Zarr.C108_violated_always"
   ],
   "note": "Full claim: Spec.ListingsShow, refuted by C108_violated, C108_violated_claim and, for every hierarchy, C108_violated_always: a group without nodes below it cannot be listed, the way to a removed node stays listed, names of child nodes are cut. C108_partial gives the exact result for every history and ordinary path when the metadata suffix begins with a dot, C108_undotted when it does not."
  },
  {
   "property": "C109",
   "status": "proved",
   "theorems": [
    "Zarr.Any.C109"
   ],
   "note": "For every implementation of the store traits with any behaviour (errors and panics too), any state and any call with an ordinary path: the log of store calls is a prefix of a script and equals it if the call succeeds. Box calls: boxes that share a point with the array (what happens for others is C16_exact)."
  },
  {
   "property": "C110",
   "status": "partial",
   "theorems": [
    "Zarr.C110_partial",
    "Zarr.C110_exact",
    "Zarr.C110_violated",
    "Zarr.C110_violated_always"
   ],
   "note": "C110_exact describes every history of box calls with a shape per call: reads see and writes change the elements of the box whose chunk begins inside the shape. C110_partial is the claim for writes without points outside the shape in such chunks. C110_violated, C110_violated_always: the other elements are stored and show after growing, in every array."
  },
  {
   "property": "C111",
   "status": "proved",
   "theorems": [
    "Zarr.C111"
   ],
   "note": "The derived Debug of Rust is modelled as text."
  },
  {
   "property": "C112",
   "status": "partial",
   "theorems": [
    "Zarr.C112_partial",
    "Zarr.C112_partial_others",
    "Zarr.C112_violated"
   ],
   "note": "all base paths whose part up to the last .. names a directory (so all without .. and all that are directories); for every base path no other file is touched (C112_partial_others); for a path x/../n with no x the document of the hierarchy n is overwritten (C112_violated)"
  },
  {
   "property": "C113",
   "status": "proved",
   "theorems": [
    "Zarr.C113",
    "Zarr.C113_history",
    "Zarr.Wide.C113_needed"
   ],
   "note": "Any number of programs with their own handles, environments and metadata; all calls of C93. C113_needed shows that the condition on the base directories cannot be dropped."
  },
  {
   "property": "C114",
   "status": "proved",
   "theorems": [
    "Zarr.C114",
    "Zarr.Wide.C114_needed"
   ],
   "note": "Failures as in C87 and C88, now in any interleaving with other programs. Nothing is claimed about how long a program whose own system calls fail goes on (C114_needed: nor about its results)."
  },
  {
   "property": "C115",
   "status": "proved",
   "theorems": [
    "Zarr.C115"
   ],
   "note": ""
  },
  {
   "property": "C116",
   "status": "proved",
   "theorems": [
    "Zarr.Threads.C116",
    "Zarr.Threads.C116_elements"
   ],
   "note": "boxes of one array read and written by concurrent threads, overlapping in any way, all chunks stored; every schedule of system calls"
  },
  {
   "property": "C117",
   "status": "proved",
   "theorems": [
    "Zarr.Locks.C117"
   ],
   "note": "Chunks with elements, fewer than 2^32. The calls are the store calls of the small-step model with inodes (Locks) and the decoding of read_chunk; an error is really possible while the chunk is written for the first time (C47_violated_chunk)."
  },
  {
   "property": "C118",
   "status": "partial",
   "theorems": [
    "Zarr.Locks.C118_partial",
    "Zarr.Locks.C118_partial_kept",
    "Zarr.Locks.C118_partial_alone",
    "Zarr.Locks.timed_of_reach",
    "Zarr.Locks.C118_violated"
   ],
   "note": "Proved with three liberties, all of which the code takes (C118_violated): where there is no value at its place in the sequence a call may fail with NotFound and a get may give an empty value; an erase may return false. C118_partial_alone: a call that meets no other takes none of them. C118_partial_kept: exactly linearizable if the key has a value at first and nobody erases it. timed_of_reach: every run of the model is a run with a clock. One key; closures succeed, nobody dies."
  },
  {
   "property": "C119",
   "status": "proved",
   "theorems": [
    "Zarr.Locks.C119"
   ],
   "note": "Results of delete_chunk are only bounded (true, false, or NotFound where there is no chunk); C118_violated shows that the exceptions happen. The model of the store calls is Model/Locks."
  },
  {
   "property": "C120",
   "status": "partial",
   "theorems": [
    "Zarr.C120_partial",
    "Zarr.C120_partial_list",
    "Zarr.C120_names",
    "Zarr.C120_violated"
   ],
   "note": "All calls but list_nodes, without hypotheses on the hierarchy, the paths or the state; chunk URIs are compared by the file they name. list_nodes depends on the length of the spelled key (C120_violated); its listings agree with overflow checks or a short metadata suffix, on paths without .. and where the files are named like documents (C120_partial_list)."
  },
  {
   "property": "C121",
   "status": "partial",
   "theorems": [
    "Zarr.C121_partial",
    "Zarr.C121_partial_compressed",
    "Zarr.C121_violated",
    "Zarr.C121_violated_compressed"
   ],
   "note": "Any box that meets the array, any room per chunk file. C121_partial (raw) and C121_partial_compressed (any encoder): if the call says Ok it says so on an unlimited device and leaves the same tree except that chunk files are cut off after the bytes that fit (raw, and encoders that unwrap: at most 8192 missing); if everything fits, both devices agree. C121_violated: raw, with chunk files below 8192 bytes the call always says Ok, and every chunk that did not fit is unreadable afterwards; C121_violated_compressed: the same with the files cut off. Missing: that nothing is cut off."
  },
  {
   "property": "C122",
   "status": "proved",
   "theorems": [
    "Zarr.C122",
    "Zarr.C122_raw"
   ],
   "note": "C122 for every compressor whose encoder is a StreamEncoder (any pieces when built, per piece and on drop), C122_raw for the raw compressor; the example is a call that fails at its second chunk."
  }
 ]
}