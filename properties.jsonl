{"id": "C01", "title": "Chunk round trip", "statement": "If write_chunk on an array path returns Ok for a chunk at an in-bounds grid position holding the number of elements the chunk shape calls for, a following read_chunk with the same path, metadata and position returns Ok(Some(chunk)) whose data is exactly the data written and whose grid position is the one asked for.", "quantifier": "every path string, array shape, chunk shape, data type and byte order, native byte order, element values, compressor whose decoder inverts its encoder, and prior filesystem state", "why_tests_cant": "the element space, the path space and the prior directory tree are unbounded; the tests use one path and random data of a few fixed shapes", "anchors": ["src/storage.rs: HierarchyWriter::write_chunk, HierarchyReader::read_chunk", "src/chunk.rs: DefaultChunkWriter::write_chunk, DefaultChunkReader::read_chunk, vec_data_chunk_impl!", "src/store/filesystem.rs: WriteableStore::set, ReadableStore::get"]}
{"id": "C02", "title": "On-disk chunk layout", "statement": "With the raw compressor, a successful write_chunk leaves in the chunk's file exactly the chunk's elements in order, each as size_of(type) bytes in the byte order named by the array's data type (bool as 0 or 1), and no other byte.", "quantifier": "every element type, both byte orders on both native byte orders, every data vector of any length (including lengths that are not multiples of the 256-element write buffer)", "why_tests_cant": "interoperability with other Zarr implementations depends on every byte for every length; tests compare one 6-element i16 chunk", "anchors": ["src/chunk.rs: vec_data_chunk_impl!, WriteableDataChunk impls for u8, bool, f16", "src/compression/raw.rs"]}
{"id": "C03", "title": "Chunk isolation", "statement": "Writing or deleting one chunk never changes what read_chunk returns for any other grid position of that array or for any chunk of any other array (default '/' separator, paths without '..').", "quantifier": "every pair of distinct (path, grid position) pairs, every prior filesystem state, successful or failing writes", "why_tests_cant": "needs a frame argument over all keys and all directory trees", "anchors": ["src/storage.rs: get_chunk_key, write_chunk, delete_chunk", "src/store/filesystem.rs: set, erase"]}
{"id": "C04", "title": "Chunk keys are unambiguous", "statement": "Two different (array path, grid position) pairs never share a chunk key, so no two chunks can overwrite each other; this should hold for whatever separator the array metadata declares.", "quantifier": "every path, every number of dimensions, every u64 coordinate, every separator string", "why_tests_cant": "injectivity over all coordinates and separators cannot be sampled", "anchors": ["src/storage.rs: get_chunk_key", "src/lib.rs: canonicalize_path, ChunkGridMetadata"]}
{"id": "C05", "title": "Chunk store refines a map", "statement": "After any sequence of delete_chunk calls and write_chunk calls whose chunks have the array's element type and element count, read_chunk at a position returns the data of the last successful write not followed by a delete, and what it returned at the start if there was neither: the store behaves as a map from positions to chunks.", "quantifier": "every finite history of writes and deletes over any positions, starting from any filesystem state", "why_tests_cant": "histories are unbounded; tests run one write, one read and one delete", "anchors": ["src/storage.rs: write_chunk, delete_chunk, read_chunk", "src/store/filesystem.rs: set, get, erase"]}
{"id": "C06", "title": "Deleting a chunk", "statement": "delete_chunk returns Ok(true) exactly when the chunk is absent at completion; after it read_chunk returns None; deleting an absent chunk succeeds and changes nothing, so the call is idempotent.", "quantifier": "every path, position and filesystem state", "why_tests_cant": "the state space of directory trees is unbounded", "anchors": ["src/storage.rs: delete_chunk", "src/store/filesystem.rs: erase"]}
{"id": "C07", "title": "A failed chunk write leaves the old chunk readable", "statement": "If write_chunk returns an error (wrong element type, wrong number of elements), the chunk that was stored before is still read back unchanged.", "quantifier": "every failing write_chunk call and every prior chunk", "why_tests_cant": "the existing test only checks that the write errs, it never reads the chunk again; the claim ranges over all prior states", "anchors": ["src/storage.rs: write_chunk", "src/chunk.rs: DefaultChunkWriter::write_chunk, check_array_type", "src/store/filesystem.rs: set (set_len(0) before the closure runs)"]}
{"id": "C08", "title": "Element type checking", "statement": "read_chunk and read_chunk_into return chunk data, and write_chunk succeeds, only when the requested element type equals the array's effective data type up to byte order; otherwise reading a stored chunk and any write return an error, and bytes are never reinterpreted.", "quantifier": "every requested element type, every declared data type, every stored byte string", "why_tests_cant": "the table of type pairs combined with arbitrary stored bytes is not covered by tests", "anchors": ["src/chunk.rs: check_array_type", "src/data_type.rs: eq_modulo_endian, effective_type"]}
{"id": "C09", "title": "Element count checking", "statement": "write_chunk accepts a chunk only if it holds exactly the number of elements given by the chunk shape, so a stored chunk always decodes to a full chunk.", "quantifier": "every data length and every chunk shape", "why_tests_cant": "lengths at and beyond 2^32 are where the 32-bit count matters and cannot be run", "anchors": ["src/chunk.rs: DefaultChunkWriter::write_chunk, get_num_elements", "src/lib.rs: get_chunk_num_elements"]}
{"id": "C10", "title": "Truncated chunk files are rejected", "statement": "read_chunk on a chunk file whose decoded stream is shorter than a full chunk returns an error, never a chunk padded with default or stale values; bytes beyond a full chunk do not influence the result.", "quantifier": "every stored byte string, every element type and every chunk shape with fewer than 2^32 elements", "why_tests_cant": "all byte strings of all lengths", "anchors": ["src/chunk.rs: ReadableDataChunk impls, DefaultChunkReader"]}
{"id": "C11", "title": "read_chunk_into equals read_chunk", "statement": "read_chunk_into gives the same outcome as read_chunk and, when it returns Some, leaves the caller's buffer equal to the chunk read_chunk would return, whatever the buffer held before (shorter, longer or stale data).", "quantifier": "every prior buffer content and length, every stored chunk", "why_tests_cant": "stale-data bugs depend on the previous buffer content, which is unbounded", "anchors": ["src/chunk.rs: ReinitDataChunk::reinitialize, DefaultChunkReader::read_chunk_into", "src/storage.rs: read_chunk_into"]}
{"id": "C12", "title": "Grid extent", "statement": "get_grid_extent returns, per dimension, the least number of chunks that cover the array: ceil(shape/chunk_shape).", "quantifier": "every array shape and every nonzero chunk shape", "why_tests_cant": "the doc tests use one shape for which a wrong formula agrees", "anchors": ["src/lib.rs: u64_ceil_div, ArrayMetadata::get_grid_extent"]}
{"id": "C13", "title": "in_bounds is exact", "statement": "in_bounds(p) holds exactly when p has one coordinate per dimension and the chunk at p overlaps the array's extent.", "quantifier": "every shape, chunk shape and grid position of any length", "why_tests_cant": "boundary off-by-one at every possible shape", "anchors": ["src/lib.rs: ArrayMetadata::in_bounds, u64_ceil_div"]}
{"id": "C14", "title": "Number of chunks agrees with enumeration", "statement": "get_num_chunks equals the number of positions produced by coord_iter.", "quantifier": "every shape and chunk shape", "why_tests_cant": "agreement of two formulas over all inputs", "anchors": ["src/lib.rs: get_num_chunks", "src/ndarray.rs: coord_iter"]}
{"id": "C15", "title": "coord_iter enumerates the grid exactly once", "statement": "coord_iter yields every grid position whose chunk overlaps the array exactly once, in lexicographic order with the last dimension fastest, and nothing else.", "quantifier": "every number of dimensions, shape and chunk shape", "why_tests_cant": "arbitrary dimension count needs induction", "anchors": ["src/ndarray.rs: coord_iter, CoordIterator::new"]}
{"id": "C16", "title": "bounded_coord_iter is exact", "statement": "bounded_coord_iter(bbox) yields exactly once every grid position whose chunk overlaps both bbox and the array, and nothing else; in particular it yields nothing when they do not overlap.", "quantifier": "every bounding box (inside, straddling, outside, empty), shape and chunk shape", "why_tests_cant": "all relative placements in all dimensions", "anchors": ["src/ndarray.rs: bounded_coord_iter, BoundingBox::intersect, CoordIterator::floor_ceil"]}
{"id": "C17", "title": "Coordinate iterators report their exact length", "statement": "At every moment of the iteration len() on the iterators returned by coord_iter and bounded_coord_iter equals the number of items still to come, and asking never panics.", "quantifier": "every shape, box and number of next() calls made so far, including after exhaustion", "why_tests_cant": "must hold at every point of every iteration", "anchors": ["src/ndarray.rs: CoordIterator::{new, floor_ceil, next, size_hint}"]}
{"id": "C18", "title": "Bounding box intersection", "statement": "After a.intersect(b) a point lies in a exactly when it lay in both boxes; is_empty holds exactly when the box contains no point; a box minus an offset contains exactly the shifted points.", "quantifier": "every pair of boxes of the same dimension and every point", "why_tests_cant": "all boxes including touching, disjoint, nested and empty ones in every dimension count", "anchors": ["src/ndarray.rs: BoundingBox::{intersect, is_empty, end}, Sub<&GridCoord>"]}
{"id": "C19", "title": "Bounding box union", "statement": "After a.union(b) a is the smallest box containing both non-empty boxes.", "quantifier": "every pair of boxes of the same dimension", "why_tests_cant": "minimality is a statement over all boxes", "anchors": ["src/ndarray.rs: BoundingBox::union"]}
{"id": "C20", "title": "read_ndarray returns the stored elements", "statement": "If read_ndarray returns an array, it has the requested shape and each element whose position lies inside the array's extent is the element of the stored chunk covering that position, laid out by the array's memory order, or the fill value if that chunk is absent.", "quantifier": "every bounding box, shape, chunk shape, memory order, number of dimensions >= 1 and chunk store content", "why_tests_cant": "every alignment of box and chunk grid in every dimension count", "anchors": ["src/ndarray.rs: ZarrNdarrayReader::{read_ndarray, read_ndarray_into, read_ndarray_into_with_buffer}, as_ndarray, get_chunk_bounds"]}
{"id": "C21", "title": "write_ndarray then read_ndarray", "statement": "After write_ndarray returns Ok, read_ndarray over the same box returns the written values at every position inside the array's extent.", "quantifier": "every box alignment, memory order, prior chunk content and values, dimension count >= 1 (an array without dimensions is C28); paths without '..' and the separators of C04", "why_tests_cant": "the tests use one shape in one memory order and one random array", "anchors": ["src/ndarray.rs: ZarrNdarrayWriter::write_ndarray"]}
{"id": "C22", "title": "write_ndarray does not disturb other elements", "statement": "After write_ndarray returns Ok, every element inside the array's extent but outside the written box reads as it did before: its old stored value, or the fill value if it was never stored.", "quantifier": "every position outside the box, every box that could be read before, every prior chunk content, dimension count >= 1 (an array without dimensions is C28); paths without '..' and the separators of C04", "why_tests_cant": "a frame property over all positions and prior contents; no test reads outside the written box", "anchors": ["src/ndarray.rs: write_ndarray (partial chunk branch), get_effective_fill_value"]}
{"id": "C23", "title": "Array histories refine a plain array", "statement": "Any sequence of write_ndarray calls on one array, each returning Ok, leaves it reading as the mathematical array obtained by applying the box updates in order to the initial contents.", "quantifier": "every finite history of box writes, every memory order, dimension count >= 1 (an array without dimensions is C28); paths without '..' and the separators of C04", "why_tests_cant": "histories are unbounded", "anchors": ["src/ndarray.rs: write_ndarray, read_ndarray"]}
{"id": "C24", "title": "Buffer reuse is unobservable", "statement": "read_ndarray_into_with_buffer writes the same elements whatever chunk buffer is supplied, and equals read_ndarray_into.", "quantifier": "every buffer state left by earlier reads of any array of the same element type", "why_tests_cant": "stale buffers come from arbitrary histories", "anchors": ["src/ndarray.rs: read_ndarray_into_with_buffer"]}
{"id": "C25", "title": "read_ndarray_into leaves uncovered elements alone", "statement": "read_ndarray_into changes only the elements for which a stored chunk supplies data; elements over absent chunks or outside the chunk grid keep the value the caller had there.", "quantifier": "every initial array content and chunk store content", "why_tests_cant": "all initial contents and chunk patterns", "anchors": ["src/ndarray.rs: read_ndarray_into_with_buffer"]}
{"id": "C26", "title": "Reading any box never panics", "statement": "read_ndarray on a box of the right dimension returns Ok or Err and never panics, wherever the box lies relative to the array.", "quantifier": "every bounding box, including boxes wholly outside the array and empty boxes", "why_tests_cant": "the panicking boxes are an infinite family not hit by the tests", "anchors": ["src/ndarray.rs: bounded_coord_iter", "src/storage.rs: read_chunk (assert in_bounds)"]}
{"id": "C27", "title": "Writing an empty array changes nothing", "statement": "write_ndarray of an array with a zero-length dimension leaves the store exactly as it was.", "quantifier": "every offset and every zero-size shape", "why_tests_cant": "depends on the alignment of the offset with the chunk grid", "anchors": ["src/ndarray.rs: write_ndarray, bounded_coord_iter"]}
{"id": "C28", "title": "Zero-dimensional arrays", "statement": "For an array with no dimensions, write_ndarray stores its single element and read_ndarray returns it.", "quantifier": "every element value and every prior state", "why_tests_cant": "no test uses a zero-dimensional array; the claim ranges over all values and states", "anchors": ["src/ndarray.rs: CoordIterator, write_ndarray, read_ndarray", "src/storage.rs: get_chunk_key"]}
{"id": "C29", "title": "Data type JSON round trip", "statement": "Serializing a data type and deserializing the result gives the same data type.", "quantifier": "every data type including every raw size and both byte orders", "why_tests_cant": "raw sizes are unbounded; no test round-trips a raw type", "anchors": ["src/data_type.rs: Serialize for DataType, DataTypeVisitor::visit_str"]}
{"id": "C30", "title": "Data type parsing never panics", "statement": "Deserializing a data type from any JSON string either gives a data type or a deserialization error.", "quantifier": "every string", "why_tests_cant": "all strings; tests only parse valid ones", "anchors": ["src/data_type.rs: DataTypeVisitor::visit_str"]}
{"id": "C31", "title": "Array metadata round trip", "statement": "After create_array(path, meta) returns Ok, get_array_metadata(path) returns exactly meta.", "quantifier": "every path, every metadata value (shape, chunk grid, data type, order, fill value, extensions, attributes, compressor) and every prior filesystem state", "why_tests_cant": "the metadata space is unbounded and nested", "anchors": ["src/storage.rs: create_array, get_array_metadata", "src/lib.rs: ArrayMetadata (serde derive)"]}
{"id": "C32", "title": "Unknown required extensions are refused", "statement": "get_array_metadata and open return an error exactly when a well-formed document lists an extension with must_understand = true; otherwise the extensions are ignored.", "quantifier": "every list of extensions and every document", "why_tests_cant": "all documents", "anchors": ["src/storage.rs: get_array_metadata", "src/store/filesystem.rs: read_entry_point_metadata"]}
{"id": "C33", "title": "Attribute merging", "statement": "After set_attributes(path, b) returns Ok, list_attributes(path) returns the old attributes overridden key by key at top level by b: keys of b have b's values, all other keys keep their old value. set_attribute does the same for a single key.", "quantifier": "every old and new attribute object whose text serde_json reads back (nested at most 126 deep, see the property on accepted attributes), for arrays and groups", "why_tests_cant": "nested JSON values are unbounded", "anchors": ["src/storage.rs: set_attributes, merge_top_level, list_attributes"]}
{"id": "C34", "title": "Setting attributes preserves the rest of the metadata", "statement": "set_attributes changes nothing but the attributes: array metadata read afterwards agrees with the metadata before in every other field, unknown top-level fields are kept, and no other key of the store changes.", "quantifier": "every metadata document, attribute map whose text serde_json reads back, and filesystem state", "why_tests_cant": "all documents", "anchors": ["src/storage.rs: set_attributes"]}
{"id": "C35", "title": "Setting attributes is idempotent", "statement": "Applying the same set_attributes call twice gives the same store as applying it once, and the second call writes nothing.", "quantifier": "every attribute map whose text serde_json reads back, and state", "why_tests_cant": "all documents", "anchors": ["src/storage.rs: set_attributes (merged != existing)"]}
{"id": "C36", "title": "Node creation is exclusive", "statement": "create_array on a path where an array or group exists fails with AlreadyExists and changes nothing; create_group on an existing group is a no-op; create_group on an array fails and changes nothing.", "quantifier": "every path and filesystem state", "why_tests_cant": "all states", "anchors": ["src/storage.rs: create_array, create_group"]}
{"id": "C37", "title": "No path is both an array and a group", "statement": "From a fresh hierarchy, after any sequence of create_group, create_array, set_attributes, write_chunk, delete_chunk and remove calls, no path has both array and group metadata.", "quantifier": "every finite history of API calls by one process over paths without '..'", "why_tests_cant": "an invariant over unbounded histories", "anchors": ["src/storage.rs: create_group, create_array, remove"]}
{"id": "C38", "title": "Removal removes the node and everything under it", "statement": "After remove(path) returns Ok, the node, its chunks and every node below it are gone: exists is false and chunks read as None for path and all descendants.", "quantifier": "every path and hierarchy content", "why_tests_cant": "all hierarchies; no test removes a group with children", "anchors": ["src/storage.rs: remove", "src/lib.rs: HierarchyWriter::remove, remove_all"]}
{"id": "C39", "title": "Removal spares everything else", "statement": "remove(path) never changes the metadata or chunks of a node that is not path or below it (in particular siblings whose names extend it).", "quantifier": "every pair of paths without '..', every hierarchy content", "why_tests_cant": "prefix confusion needs all names", "anchors": ["src/storage.rs: remove", "src/store/filesystem.rs: erase, erase_prefix"]}
{"id": "C40", "title": "Leading and trailing slashes do not matter", "statement": "Every operation gives the same result for a path and for the path with any number of slashes added or removed at either end.", "quantifier": "every path string and number of slashes, every operation", "why_tests_cant": "all strings", "anchors": ["src/lib.rs: canonicalize_path, array_metadata_key, group_metadata_key, data_path_key", "src/storage.rs: get_chunk_key"]}
{"id": "C41", "title": "Operations stay inside the hierarchy's directory", "statement": "No operation reads, creates, changes or removes a filesystem entry outside the hierarchy's base directory, whatever path is passed.", "quantifier": "every path string including '..' components, every operation", "why_tests_cant": "security property over all strings; the test only tries four", "anchors": ["src/store/filesystem.rs: get_path"]}
{"id": "C42", "title": "list_nodes returns the child nodes", "statement": "list_nodes(path) returns exactly the names of the immediate child nodes of path (arrays, groups and implicit groups), sorted and without duplicates.", "quantifier": "every hierarchy content and every node name", "why_tests_cant": "no test lists a node that has metadata; the claim ranges over all names and hierarchies", "anchors": ["src/storage.rs: list_nodes", "src/store/filesystem.rs: list_dir"]}
{"id": "C43", "title": "Listing all keys", "statement": "list() and list_prefix return exactly the keys present in the store under the prefix.", "quantifier": "every store content and nesting depth", "why_tests_cant": "no test calls it; recursion over arbitrary trees", "anchors": ["src/storage.rs: ListableStore::{list, list_prefix}", "src/store/filesystem.rs: list_dir"]}
{"id": "C44", "title": "Opening a hierarchy", "statement": "open succeeds exactly when the entry point document is well formed, lists no required extension and names a compatible version; open_or_create on a directory without one creates it so that a later open succeeds with the same metadata; on an existing hierarchy open_or_create changes nothing.", "quantifier": "every filesystem state and entry point document", "why_tests_cant": "all states", "anchors": ["src/store/filesystem.rs: open, open_or_create, read_entry_point_metadata", "src/storage.rs: get_version"]}
{"id": "C45", "title": "Creation survives a crash", "statement": "If open_or_create is interrupted at any point, a later open_or_create on the same directory succeeds.", "quantifier": "every crash point between the filesystem steps of open_or_create", "why_tests_cant": "crash points are not reachable from tests", "anchors": ["src/store/filesystem.rs: open_or_create"]}
{"id": "C46", "title": "A crash during a write damages at most the key being written", "statement": "If the process dies at any point inside a store write, every other key keeps its value, and the written key holds its old value, or a prefix of the new one.", "quantifier": "every crash point, key, value and filesystem state", "why_tests_cant": "crash points are not reachable from tests", "anchors": ["src/store/filesystem.rs: set"]}
{"id": "C47", "title": "Readers never observe a torn value", "statement": "Under concurrent store readers, writers and erasers that take the advisory locks as the code does, a read returns None or a value some writer completely wrote, never a mixture or a partial value.", "quantifier": "every number of concurrent calls and every interleaving of their filesystem steps", "why_tests_cant": "schedules are unbounded and nondeterministic", "anchors": ["src/store/filesystem.rs: get, set, erase (fs2 locks)"]}
{"id": "C48", "title": "Concurrent attribute updates are not lost", "statement": "If two set_attributes calls on disjoint keys both return Ok, both updates are visible afterwards.", "quantifier": "every interleaving of the two calls", "why_tests_cant": "a race", "anchors": ["src/storage.rs: set_attributes (TODO: race condition)"]}
{"id": "C49", "title": "Compressor parameters are legal", "statement": "The gzip level handed to the encoder is always in 0..=9 and equals the configured one when that is legal; the LZ4 block size chosen is the smallest supported size not below the configured one, or the largest supported one.", "quantifier": "every 32-bit configuration value", "why_tests_cant": "2^32 values per field", "anchors": ["src/compression/gzip.rs: get_effective_level", "src/compression/lz.rs: get_effective_block_size"]}
{"id": "C50", "title": "Compressor JSON and name round trips", "statement": "A compressor serialized in array metadata deserializes to the same compressor, an absent compressor means raw, and parsing the displayed name of a compressor (in any letter case) gives that compressor with default configuration.", "quantifier": "every compressor configuration and every feature selection", "why_tests_cant": "all configurations and letter cases", "anchors": ["src/compression/mod.rs: CompressionType, Display, FromStr, is_default"]}
{"id": "C51", "title": "Pure-Rust LZ4 round trip", "statement": "With the lz_pure feature, a chunk of any size written with the LZ4 compressor reads back as written.", "quantifier": "every chunk length", "why_tests_cant": "depends on the 256-element write granularity; tests are not run with this feature for long chunks", "anchors": ["src/compression/lz_pure.rs: Wrapper::write", "src/chunk.rs: vec_data_chunk_impl! (CHUNK = 256)"]}
{"id": "C52", "title": "Effective fill value", "statement": "get_effective_fill_value returns the type's default when the fill value is null or absent, the declared value when it is representable in the element type, and an error otherwise.", "quantifier": "every JSON fill value and element type", "why_tests_cant": "all JSON values", "anchors": ["src/lib.rs: get_effective_fill_value"]}
{"id": "C53", "title": "A successful write is complete", "statement": "If write_chunk returns Ok then all bytes of the chunk reached the file, even when the device runs out of space during the write.", "quantifier": "every chunk and every amount of free space", "why_tests_cant": "needs injected I/O failures at every byte", "anchors": ["src/store/filesystem.rs: set (BufWriter dropped without flush)", "src/chunk.rs: DefaultChunkWriter::write_chunk"]}
{"id": "C54", "title": "Chunk URIs name the chunk file", "statement": "get_chunk_uri returns file:// followed by the path of the file that write_chunk creates for that position, for every position whether or not the chunk exists.", "quantifier": "every base path, array path without '..' and position", "why_tests_cant": "all paths", "anchors": ["src/storage.rs: get_chunk_uri", "src/store/filesystem.rs: uri, get_path"]}
{"id": "C55", "title": "Type reflection is coherent", "statement": "For every reflected element type the declared Zarr type has the size of the Rust type, equality up to byte order is an equivalence relation that identifies exactly types differing in byte order, and the data type dispatch selects the unique Rust type with that Zarr type.", "quantifier": "every pair of data types", "why_tests_cant": "raw sizes are unbounded", "anchors": ["src/data_type.rs: size_of, eq_modulo_endian, reflected_type!, data_type_match!"]}
{"id": "C56", "title": "Data types with an extension", "statement": "For an array whose data type is an extension type, chunk reads and writes use the declared fallback type, and return an error when there is none.", "quantifier": "every extension type", "why_tests_cant": "the missing-fallback case is untested", "anchors": ["src/data_type.rs: ExtensibleDataType::effective_type"]}
{"id": "C57", "title": "Machine arithmetic does not change results", "statement": "For arrays whose extents fit, grid, box and index computations on u64/u32/usize give the mathematical result without overflow panics or wrap-around.", "quantifier": "every shape, chunk shape, position and box", "why_tests_cant": "values near 2^64 and 2^32", "anchors": ["src/lib.rs: u64_ceil_div, get_num_elements, get_chunk_num_elements", "src/ndarray.rs: intersect, union, bounded_coord_iter, get_chunk_bounds"]}
{"id": "C58", "title": "Failed reads and queries change nothing", "statement": "get_array_metadata, exists, array_exists, read_chunk, list_attributes, list_nodes, get_chunk_uri, get_version and read_ndarray never modify the store, whether they succeed or fail.", "quantifier": "every path and state", "why_tests_cant": "all states", "anchors": ["src/storage.rs: HierarchyReader impl", "src/store/filesystem.rs: ReadableStore impl"]}
{"id": "C59", "title": "Writing outside the grid is refused or readable", "statement": "A chunk that write_chunk accepts can be read back with read_chunk.", "quantifier": "every grid position", "why_tests_cant": "all positions beyond the extent", "anchors": ["src/storage.rs: write_chunk (commented-out assert), read_chunk"]}
{"id": "C60", "title": "Existence reflects creation", "statement": "exists(path) is true after a successful create_array or create_group at path and stays true until the node is removed; array_exists is true exactly for arrays whose metadata can be read; neither is affected by operations on other nodes.", "quantifier": "every path and history", "why_tests_cant": "all histories", "anchors": ["src/storage.rs: exists, array_exists"]}
{"id": "C61", "title": "A successful metadata write is complete", "statement": "If create_array, create_group, set_attributes or open_or_create returns Ok then the whole document reached the file, even when the device runs out of space during the write.", "quantifier": "every document and every amount of free space", "why_tests_cant": "needs injected I/O failures at every byte", "anchors": ["src/storage.rs: create_array, create_group, set_attributes", "src/store/filesystem.rs: set, open_or_create (BufWriter dropped without flush)"]}
{"id": "C62", "title": "Concurrent writers leave one complete value", "statement": "Whenever no set of a key is in progress, the key is absent or holds exactly the bytes one returned set wrote (or what it held at first); without erasures it holds the bytes of the set that ended last.", "quantifier": "every number of concurrent get, set and erase calls and every interleaving of their system calls", "why_tests_cant": "schedules are unbounded and nondeterministic", "anchors": ["src/store/filesystem.rs: get, set, erase (fs2 locks)"]}
{"id": "C63", "title": "Store calls on a key do not deadlock", "statement": "Concurrent get, set and erase calls for a key never wait for each other for ever: if no thread can go on then every call has returned, and without new calls only finitely many steps can be taken.", "quantifier": "every number of concurrent calls and every interleaving of their system calls", "why_tests_cant": "a deadlock needs a particular schedule; termination is about all schedules", "anchors": ["src/store/filesystem.rs: get, set, erase (fs2 locks)"]}
{"id": "C64", "title": "Raw chunk files are laid out as specified", "statement": "With the raw compressor, read_chunk of any file holding at least a full chunk's bytes returns the chunk whose i-th element is the number given by the bytes at i times the element size, in the declared byte order (booleans: nonzero is true).", "quantifier": "every file content, element type, byte order and chunk shape below 2^32 elements", "why_tests_cant": "files written by other implementations; all byte contents", "anchors": ["src/chunk.rs: ReadableDataChunk impls, DefaultChunkReader::read_chunk", "src/compression/raw.rs"]}
{"id": "C65", "title": "Files are where the format says", "statement": "The chunk at a position is the file data/root/<path>/c<i>/<j>/... (separator /) or data/root/<path>/c<i><sep><j>... below the hierarchy, with decimal coordinates; write_chunk, delete_chunk, read_chunk and get_chunk_uri use that file and change no other. Array and group documents are meta/root/<path>.array<suffix> and meta/root/<path>.group<suffix>; create_array and create_group change no other file.", "quantifier": "every path without '..', position, separator that is / or contains none, and state", "why_tests_cant": "all paths and coordinates; absence of effects elsewhere", "anchors": ["src/lib.rs: canonicalize_path, get_chunk_key", "src/storage.rs: get_chunk_key, array_metadata_key, group_metadata_key, write_chunk, read_chunk, delete_chunk", "src/store/filesystem.rs: get_path"]}
{"id": "C66", "title": "Documents have the specified format", "statement": "get_array_metadata returns m exactly if the array's document is a JSON object whose members describe m as the Zarr v3 draft specifies and requires no extension; create_array, create_group and open_or_create write documents with the specified members that describe the given metadata.", "quantifier": "every document and metadata value", "why_tests_cant": "all documents, including ones from other implementations", "anchors": ["src/lib.rs: ArrayMetadata, ChunkGridMetadata, ExtensionMetadata", "src/data_type.rs: DataType Serialize and Deserialize", "src/compression/mod.rs: CompressionType", "src/storage.rs: create_array, create_group, get_array_metadata, open_or_create"]}
{"id": "C67", "title": "Calls succeed exactly when nothing is in the way", "statement": "create_group, create_array, set_attributes, remove and write_chunk return Ok if and only if their preconditions hold: the path has no conflicting document, the document to update exists and is a JSON object, no directory stands where a document goes, and nothing blocks the location of the file to be written (no file where a directory is needed, no directory at the location).", "quantifier": "every path without '..' and every state of the directory tree", "why_tests_cant": "both directions over all states", "anchors": ["src/storage.rs: create_group, create_array, set_attributes, remove, write_chunk", "src/store/filesystem.rs: set, erase, erase_prefix"]}
{"id": "C68", "title": "Box reads and writes succeed", "statement": "read_ndarray of a box that shares a point with the array returns Ok when the fill value is valid and every stored chunk that meets the box can be read; write_ndarray over such a box returns Ok when in addition the element type is the array's and nothing blocks the chunks' locations. For an array without data this holds for every such box, and reading back returns the written values.", "quantifier": "every array of at least one dimension with nonzero chunk sizes below 2^32 elements, every box that meets it, every state", "why_tests_cant": "all shapes and partial overlaps; absence of panics on all paths", "anchors": ["src/ndarray.rs: read_ndarray, read_ndarray_into_with_buffer, write_ndarray"]}
{"id": "C69", "title": "Listing the whole store ends", "statement": "list and list_prefix return (Ok or an error) on every store: they visit only finitely many directories and do not panic.", "quantifier": "every directory tree and prefix without '..'", "why_tests_cant": "non-termination on a particular tree cannot be observed by a finite run; all trees", "anchors": ["src/storage.rs: ListableStore::list, list_prefix", "src/store/filesystem.rs: list_dir"]}
{"id": "C70", "title": "A hierarchy with ordinary names behaves as a map", "statement": "Starting in a directory without a hierarchy, every history of create_group, create_array, set_attributes, remove, write_chunk, delete_chunk, exists, array_exists, get_array_metadata, list_attributes and read_chunk gives exactly the results it gives on an abstract map from paths to nodes (a group or array with attributes) and from paths and grid positions to chunks.", "quantifier": "every history of calls, of any length, with names that do not look like document or chunk file names, storable metadata, chunk calls inside the grid with the array's element type and a compressor that works", "why_tests_cant": "histories are unbounded; every interleaving of calls on different nodes", "anchors": ["src/storage.rs: HierarchyReader and HierarchyWriter impls", "src/store/filesystem.rs: get, set, erase, erase_prefix, exists"]}
{"id": "C71", "title": "A crash inside a call harms only its own files", "statement": "If the process dies inside create_group, create_array, set_attributes, remove, write_chunk or delete_chunk, every file the call does not concern keeps its content, every file holds its old content, its new content or a prefix of the new one, and the metadata, attributes and other chunks of every other node read as before.", "quantifier": "every state of the directory tree, call and point between system calls or bytes written", "why_tests_cant": "needs a crash at every point of every call", "anchors": ["src/storage.rs: HierarchyWriter impl", "src/store/filesystem.rs: set, erase, erase_prefix"]}
{"id": "C72", "title": "An interrupted call can be repeated", "statement": "If the process dies inside a call that would have succeeded, then making the same call again returns the same result and leaves the same files as if there had been no crash.", "quantifier": "every state of the directory tree, call and crash point", "why_tests_cant": "needs a crash at every point of every call", "anchors": ["src/storage.rs: create_group, create_array, set_attributes, remove, write_chunk, delete_chunk", "src/store/filesystem.rs: set, erase, erase_prefix"]}
{"id": "C73", "title": "An interrupted call leaves the old or the new content", "statement": "If the process dies inside a call, every file has either the content it had before the call or the content the call would leave: a reader never sees a document or chunk cut short.", "quantifier": "every state of the directory tree, call and crash point", "why_tests_cant": "needs a crash at every byte of every write", "anchors": ["src/storage.rs: HierarchyWriter impl", "src/store/filesystem.rs: set (truncates, then writes)"]}
{"id": "C74", "title": "An interrupted creation can be repaired", "statement": "If the process dies inside create_group or create_array, remove followed by the same creation succeeds and the node then reads as created.", "quantifier": "every state of the directory tree in which nothing blocks the documents' locations, path without '..', storable metadata and crash point", "why_tests_cant": "needs a crash at every byte of every write", "anchors": ["src/storage.rs: create_group, create_array, remove"]}
{"id": "C75", "title": "Threads that use different files do not interfere", "statement": "Any number of threads or processes run sequences of store calls (exists, get, set, erase) at the same time. If no thread uses a file that another changes, then whatever the interleaving of their system calls, every thread gets the results and leaves the files it would alone, files nobody writes stay as they are, no thread waits for another, all finish, and the outcome is that of the sequences run one after the other.", "quantifier": "every number of threads, program of store calls, directory tree in which nothing blocks the files written, and interleaving of system calls and bytes", "why_tests_cant": "needs every interleaving of every set of programs", "anchors": ["src/store/filesystem.rs: get, set, erase, exists (create_dir_all, open, flock, set_len, remove_file)"]}
{"id": "C76", "title": "Concurrent calls about different nodes and chunks", "statement": "Several threads use one hierarchy at the same time, each making any sequence of create_group, create_array, set_attributes, write_chunk, delete_chunk, exists, array_exists, get_array_metadata, list_attributes and read_chunk. If no thread makes a call about a node or chunk that another changes, every thread gets exactly the results of an abstract map from paths to nodes and positions to chunks, no thread waits or runs forever, and later calls see the map after all the threads' calls.", "quantifier": "every earlier history, number of threads, sequence of calls per thread with ordinary names and valid arguments, and interleaving", "why_tests_cant": "needs every interleaving of unbounded histories", "anchors": ["src/storage.rs: HierarchyReader and HierarchyWriter impls", "src/store/filesystem.rs: get, set, erase, exists"]}
{"id": "C77", "title": "Concurrent calls are serializable", "statement": "Calls made by several threads at the same time have the results that they have when they are made one after the other in some order, and leave the same files.", "quantifier": "every directory tree, set of calls per thread and interleaving", "why_tests_cant": "races need particular interleavings", "anchors": ["src/storage.rs: create_group, create_array (exists, then set), set_attributes (get, then set)"]}
{"id": "C78", "title": "Concurrent writes of disjoint boxes are all kept", "statement": "When several threads write boxes of one array that have no element in common, and read boxes that nobody else writes, at the same time, then the reads return what they return alone, and if every write returns Ok all the written values are there afterwards and all other elements are as before.", "quantifier": "every array, set of box reads and writes per thread and interleaving", "why_tests_cant": "races need particular interleavings and box positions", "anchors": ["src/ndarray.rs: write_ndarray (reads a chunk, then writes it), read_ndarray", "src/store/filesystem.rs: get, set"]}
{"id": "C79", "title": "Store calls on shared files take effect at once", "statement": "Threads make store calls (exists, get, set, erase) at the same time; each creates and erases files of its own, and all may overwrite and read files that exist. Whatever the interleaving of their system calls, there is a moment between the begin and the end of each call such that all threads get the results, and leave the files, that they would if each call were made whole at its moment: a reader never sees a part of a value.", "quantifier": "every number of threads and program of store calls of this kind, every directory tree in which nothing blocks the files written, every interleaving of system calls and bytes", "why_tests_cant": "needs every interleaving of every set of programs", "anchors": ["src/store/filesystem.rs: get, set, erase (flock, set_len)"]}
{"id": "C80", "title": "Concurrent calls always end", "statement": "Whatever programs of store calls any number of threads or processes run at the same time, with or without files in common, the number of their system calls is bounded whatever the interleaving, and as long as one has not finished some thread can go on: locks never lead to a deadlock or an endless wait of all.", "quantifier": "every number of threads, program of store calls, directory tree and interleaving", "why_tests_cant": "a deadlock needs a particular interleaving; endless runs cannot be observed", "anchors": ["src/store/filesystem.rs: get, set, erase (lock_shared, lock_exclusive)"]}
{"id": "C81", "title": "Histories with boxes behave like a map of elements", "statement": "In a directory without a hierarchy, any sequence of node calls, chunk calls, read_ndarray and write_ndarray gives exactly the results of an abstract map from paths to nodes and positions to chunks, where write_ndarray succeeds and changes exactly the elements of its box (creating the chunks it touches, filled with the fill value), and read_ndarray returns at each point the last value written there, or the fill value.", "quantifier": "every history of calls with ordinary names and valid arguments, and every box that has a point in common with its array", "why_tests_cant": "the histories are unbounded and mix chunk and box access, nodes and arrays", "anchors": ["src/ndarray.rs: read_ndarray_into, write_ndarray", "src/storage.rs: HierarchyReader and HierarchyWriter impls"]}
{"id": "C82", "title": "A hierarchy can be closed and opened again", "statement": "A program opens or creates a hierarchy in an empty directory, makes any sequence of node calls, chunk calls and box reads and writes, and opens the hierarchy again (with open or open_or_create) as often as it likes in between. Every opening succeeds with the same entry point metadata, and the results of all calls are those of one abstract map: what was written before is there after reopening. No call, successful or not, changes a file outside the meta and data directories, in particular not the entry point document.", "quantifier": "every history of openings and calls with ordinary names and valid arguments; the statement on the changed files for every directory tree and all paths without ..", "why_tests_cant": "the histories are unbounded; the tests open a hierarchy once", "anchors": ["src/store/filesystem.rs:44-118 open_or_create, open", "src/storage.rs: HierarchyReader and HierarchyWriter impls", "src/ndarray.rs"]}
{"id": "C83", "title": "New arrays", "statement": "ArrayMetadata::new panics exactly when the shapes have different numbers of dimensions. Otherwise creating the array stores a document with the given shape, chunk shape, type and compressor, a regular grid with the separator /, column-major chunks, no fill value, no extensions and no attributes; get_array_metadata returns the same metadata (on a big-endian machine up to the byte order of one-byte integers), list_attributes returns nothing, the chunk at a position is the file whose path consists of the coordinates, chunks of the type are read back as written, and elements that were never written are 0.", "quantifier": "every shape, chunk shape, element type, compressor, hierarchy, path and directory tree", "why_tests_cant": "the combinations of shapes, types and compressors are unbounded", "anchors": ["src/lib.rs:405-430 ArrayMetadata::new", "src/data_type.rs:479-490 ZARR_TYPE", "src/storage.rs: create_array, get_array_metadata, write_chunk, read_chunk"]}
{"id": "C84", "title": "A failed box write leaves old or new elements", "statement": "However write_ndarray ends, with Ok, an error or a panic, every element of the array that could be read before can be read afterwards, and is either the old one or the new one; the new ones are those of the box in the chunks written so far. After Ok all elements of the box are new.", "quantifier": "every array, box, values, directory tree and point of failure", "why_tests_cant": "failures in the middle of a write are hard to provoke, and there are as many points of failure as chunks", "anchors": ["src/ndarray.rs:282-386 write_ndarray", "src/storage.rs: write_chunk", "src/store/filesystem.rs: set"]}
{"id": "C85", "title": "Reads depend only on the chunks they touch", "statement": "What read_ndarray returns over a box depends only on the contents of the files of the chunks that share a point with the box and the array: all other files may be missing, different or damaged, and the hierarchy and the array may be elsewhere. It returns Ok exactly if the fill value is valid and each of these chunks is absent or readable.", "quantifier": "every array, box with a point in the array, pair of directory trees, hierarchies and paths", "why_tests_cant": "tests do not damage files, and the trees are unbounded", "anchors": ["src/ndarray.rs:154-268 read_ndarray, read_ndarray_into_with_buffer", "src/storage.rs: read_chunk"]}
{"id": "C86", "title": "The layout of an array is not observable through boxes", "statement": "Two hierarchies whose arrays have the same shapes, element types and fill values but differ in chunk shape, memory order, byte order, separator, compressor or entry point, or that are kept by different machines, give the same results for every history of box writes, box reads inside the arrays, and removals of arrays.", "quantifier": "every history of calls with ordinary names, pair of layouts and pair of directory trees without a hierarchy", "why_tests_cant": "pairs of layouts times histories are unbounded", "anchors": ["src/ndarray.rs: read_ndarray, write_ndarray", "src/chunk.rs", "src/data_type.rs", "src/lib.rs: grid and chunk key functions"]}
{"id": "C87", "title": "I/O errors are reported", "statement": "If system calls of an API call fail, any of them and with any error, and the call returns Ok nevertheless, then its result and all files and directories are those of the call without failures.", "quantifier": "every call, directory tree, and set of failing system calls and errors", "why_tests_cant": "tests run on devices that do not fail, and there are as many failures as system calls", "anchors": ["src/store/filesystem.rs:196-312 exists, get, set, erase", "src/storage.rs: HierarchyReader and HierarchyWriter impls", "src/ndarray.rs", "src/lib.rs:229-231 array_exists"]}
{"id": "C88", "title": "Failing system calls do no harm elsewhere", "statement": "Whatever system calls of an API call fail, noticed or not, and at every moment of the call: every directory is still there (but for remove), reads and listings have changed nothing, create_group and create_array nothing but their document, set_attributes nothing but the documents of the node, write_chunk and delete_chunk nothing but the file of the chunk, and write_ndarray nothing but the files of the chunks that share a point with the box and the array; all else that is new are directories above these files; remove has made nothing and removed nothing but the documents of the node and what is at or below the directory of its chunks, so that only there directories can be gone.", "quantifier": "every call, directory tree, set of failing system calls and moment", "why_tests_cant": "tests run on devices that do not fail", "anchors": ["src/store/filesystem.rs:196-312 exists, get, set, erase", "src/storage.rs: HierarchyReader and HierarchyWriter impls", "src/ndarray.rs"]}
{"id": "C89", "title": "Accepted attributes can be read", "statement": "After set_attributes returns Ok, list_attributes returns Ok with the attributes that were set.", "quantifier": "every node, attributes of any depth and filesystem state", "why_tests_cant": "nested JSON values are unbounded; the tests nest a few levels", "anchors": ["src/storage.rs: set_attributes, list_attributes, create_array", "serde_json: reading is limited to 127 nested arrays and objects, writing is not"]}
{"id": "C90", "title": "remove_all removes the hierarchy", "statement": "After remove_all returns Ok no path is a node and no chunk can be read, and the hierarchy can still be opened. It returns Ok unless a directory stands where a document of the root goes.", "quantifier": "every hierarchy and directory tree", "why_tests_cant": "trees are unbounded; no test calls remove_all", "anchors": ["src/lib.rs:311-314 remove_all", "src/storage.rs:444-454 remove", "src/store/filesystem.rs: erase, erase_prefix"]}
{"id": "C91", "title": "Attributes at a key", "statement": "FilesystemHierarchy::get_attributes returns the JSON value of the document at the key of a node, an empty object for an implicit group (a directory without a document), and NotFound if there is neither; it changes nothing.", "quantifier": "every node path, array or group key, and directory tree", "why_tests_cant": "no test calls get_attributes", "anchors": ["src/store/filesystem.rs:119-139 get_attributes"]}
{"id": "C92", "title": "Metadata and attribute listing agree", "statement": "If get_array_metadata of a path returns Ok, then list_attributes of the path returns Ok with the attributes in the metadata.", "quantifier": "every path, document (with unknown or repeated members, in every form serde accepts) and filesystem state", "why_tests_cant": "the two calls use different deserialisers, a derived one and serde_json::Value, on documents any program may have written", "anchors": ["src/storage.rs:165-178 get_array_metadata", "src/storage.rs:278-313 list_attributes", "src/lib.rs: ArrayMetadata (derived Deserialize)"]}
{"id": "C93", "title": "Removal and listing among concurrent calls", "statement": "Several threads make calls at the same time, among them remove, which deletes a tree file by file, and list_nodes, which looks at a directory entry by entry. If no call is about something that a call of another thread changes (the documents of a node, a chunk, for remove all chunks of the node and of the nodes below it, for list_nodes all documents below the node), then every call has the result it has alone, no thread waits for another or runs forever, and all files are in the end those of the calls made one after the other.", "quantifier": "every number of threads, calls with ordinary names (also failing ones), directory tree without files where directories of the nodes go, and interleaving of system calls", "why_tests_cant": "interleavings of recursive removal with other calls are unbounded; the tests use one thread", "anchors": ["src/store/filesystem.rs:226-255 list_dir, 294-312 erase_prefix", "src/storage.rs:310-357 list_nodes, 444-454 remove", "src/ndarray.rs"]}
{"id": "C94", "title": "Other programs in the same directory", "statement": "While a thread makes calls, other programs write, remove and create files and directories that have nothing to do with the calls: not the documents of the nodes, the chunks the calls are about, or (for remove and list_nodes) what is below, and not a file or removed directory above these. Then the calls have the results they have alone, need a bounded number of steps without waiting, and leave the same files in their places.", "quantifier": "every sequence of calls with ordinary names (also failing ones), directory tree without files where directories of the nodes go, and interleaving of system calls with any number of such changes at any moments", "why_tests_cant": "what other programs do is unbounded; the tests run in a directory of their own", "anchors": ["src/store/filesystem.rs:196-312 exists, get, set, list_dir, erase, erase_prefix", "src/storage.rs: HierarchyReader and HierarchyWriter impls", "src/ndarray.rs"]}
{"id": "C95", "title": "Calls end although system calls fail", "statement": "Whatever system calls of an API call fail, with any errors, once or every time they are made, the call ends after finitely many system calls with a result, an error or a panic: no loop of the crate (creating directories upwards and downwards, reading and writing, walking a tree) runs on. A system call that a signal interrupts and the standard library repeats counts as one.", "quantifier": "every call, every directory tree (for remove and list_nodes: ordinary names), and every infinite sequence of failures", "why_tests_cant": "a call that does not end can only be seen by waiting forever; there are infinitely many sequences of failures", "anchors": ["src/store/filesystem.rs:196-312 exists, get, set, list_dir, erase, erase_prefix", "src/storage.rs: HierarchyReader and HierarchyWriter impls", "src/ndarray.rs"]}
{"id": "C96", "title": "A hierarchy can be moved or copied", "statement": "A hierarchy depends on nothing but what is in its directory: if its directory is moved or copied to another place, even another filesystem that returns directory entries in another order, then open and open_or_create of the new place succeed or fail as for the old one with the same version, every call there (metadata, attributes, existence, node listing, creation, removal, chunks and boxes) returns what it returns in the old place, and what the calls leave in the two directories is again equal.", "quantifier": "every two places with ordinary names, filesystem states whose directories at the two places hold the same, and sequence of calls with ordinary node paths and metadata suffixes", "why_tests_cant": "copies of all possible hierarchies to all places, followed by all call sequences, are unbounded; the tests use one directory", "anchors": ["src/store/filesystem.rs:22-95 open, open_or_create, get_path", "src/store/filesystem.rs:196-312 ReadableStore, ListableStore and WriteableStore impls", "src/storage.rs: HierarchyReader and HierarchyWriter impls", "src/ndarray.rs"]}
{"id": "C97", "title": "Errors tell their causes", "statement": "The kind of an error says what is wrong. open: NotFound iff there is no zarr.json and no file stands in the way; InvalidData (not from serde_json) iff zarr_format does not end in a version requirement; Other iff the version or an extension that must be understood is unknown. get_array_metadata: NotFound iff there is no array document. list_attributes and set_attributes: NotFound iff there is no document; otherwise only an error of serde_json or, in list_attributes, InvalidData if attributes is not an object. create_group: AlreadyExists iff there is an array document, create_array: iff there is any document (where nothing stands in the way of the new document), and Ok otherwise. read_chunk and read_chunk_into without compression: InvalidInput iff a chunk exists and the element type is another, UnexpectedEof iff its file is too short, no other error. write_chunk where nothing stands in the way: InvalidInput iff the element type is another, InvalidData iff only the number of elements is wrong, no other error. Reading and writing boxes without compression: InvalidData iff the dimensions do not fit, and then write_ndarray changes nothing.", "quantifier": "every hierarchy, ordinary path, document, metadata (chunks of fewer than 2^32 elements), element type, chunk, box and filesystem state", "why_tests_cant": "states, documents and boxes are unbounded; the tests check only that some calls fail", "anchors": ["src/store/filesystem.rs:22-116 open, check", "src/storage.rs:132-178 open, get_array_metadata", "src/storage.rs:278-308 list_attributes", "src/storage.rs:361-442 set_attributes, create_group, create_array", "src/chunk.rs:250-330 check_array_type, write_chunk", "src/ndarray.rs:195-330 read_ndarray, write_ndarray"]}
{"id": "C98", "title": "Several processes open or create one hierarchy", "statement": "Several threads or processes call open_or_create (and open) for a base path where there is no hierarchy yet, at the same time. Every call of open_or_create returns the hierarchy, whatever the order of the system calls; zarr.json never holds anything but a beginning of the document; nothing else is changed except that directories on the way to the base path are made; once the document is complete it stays complete; no call waits forever; and when all have returned, open succeeds.", "quantifier": "every number of calls, base path with ordinary names, filesystem state without a hierarchy there or a file in its way, and interleaving of system calls (every byte read or written is one)", "why_tests_cant": "interleavings of processes are unbounded and tests cannot choose them; the tests open a hierarchy from one thread", "anchors": ["src/store/filesystem.rs:50-60 read_entry_point_metadata", "src/store/filesystem.rs:63-79 open", "src/store/filesystem.rs:84-120 open_or_create"]}
{"id": "C99", "title": "Symbolic links are transparent", "statement": "Parts of a hierarchy may be symbolic links, to files and directories anywhere: its data may be on another disk, a metadata document may be shared. Calls see what the links lead to: open and every call that only reads return what they return for a hierarchy with files and directories in place of the links, and change nothing; sequences of creating, writing, deleting and reading calls (all but remove) return the same too, and what they leave shows the same again. For the sequences with writes no two paths below the base directory lead to the same place and no deleted chunk is a link to a directory.", "quantifier": "every filesystem with links (absolute, relative, chained up to the limit of the system, through `..`) without broken links in the hierarchy, base directory and node paths with ordinary names, and sequence of calls", "why_tests_cant": "arrangements of links and call sequences are unbounded; the tests use none", "anchors": ["src/store/filesystem.rs:50-79 read_entry_point_metadata, open", "src/store/filesystem.rs:196-292 exists, get, list_dir, set, erase", "src/storage.rs: HierarchyReader and HierarchyWriter impls", "src/ndarray.rs"]}
{"id": "C100", "title": "The calls do the same on every store", "statement": "The calls are implemented for every type that implements the store traits. On any store that keeps for each key the value last set and erases, for a prefix, the keys whose names begin with its names, every history of creating, writing, reading, deleting and removing calls, boxes included, returns what it returns on a map from nodes to metadata, attributes and chunk elements, just as on a filesystem. The store need hold nothing else, may hold other keys, and its state may be anything.", "quantifier": "every such store, hierarchy with an ordinary metadata suffix, and history of permitted calls with ordinary paths that are written with one slash between names", "why_tests_cant": "implementations of the traits and histories are unbounded; the crate has one implementation and tests only that", "anchors": ["src/storage.rs:33-82 ReadableStore, ListableStore, WriteableStore", "src/storage.rs:144-308 HierarchyReader impl", "src/storage.rs:359-520 HierarchyWriter impl", "src/ndarray.rs"]}
{"id": "C101", "title": "The calls need no more of a store than its documentation says", "statement": "The documentation of the store traits says that a prefix is a string that keys begin with. On a store that keeps for each key the value last set and takes prefixes so, every history of calls returns what it returns on a map from nodes to metadata, attributes and chunk elements; in particular remove of a node does not touch the chunks of nodes that are not below it, and list_nodes returns the nodes below a path.", "quantifier": "every such store, hierarchy with an ordinary metadata suffix, and history of permitted calls with ordinary paths that are written with one slash between names", "why_tests_cant": "implementations of the traits and histories are unbounded; the crate has one implementation, which takes prefixes for directories", "anchors": ["src/storage.rs:50-66 list_prefix, list_dir", "src/storage.rs:80-82 erase_prefix", "src/storage.rs:310-318 list_nodes", "src/storage.rs:444-454 remove", "src/lib.rs:212-214 data_path_key"]}
{"id": "C102", "title": "Every compressor configuration that a document can hold works", "statement": "The configuration of an array's compressor comes from its document or from the program: a block size for bzip2 and LZ4, a level for gzip, a preset for xz. Whatever value the document may hold, a chunk that fits the array can be written and read back: the code passes the compression library only what it takes, or refuses the configuration before anything is stored. In particular no write_chunk panics over a configuration, leaving an empty file in place of the chunk.", "quantifier": "every array metadata with a compressor of any configuration that is accepted, chunk that fits, and state of the filesystem in which the chunk can be written, with compression libraries that do as their documentation says", "why_tests_cant": "the tests use one configuration of each compressor; a document may hold 256 block sizes and 2^32 levels, presets and block sizes", "anchors": ["src/compression/bzip.rs:16-46 Bzip2Compression", "src/compression/gzip.rs:22-57 get_effective_level", "src/compression/lz.rs:52-93 get_effective_block_size", "src/compression/xz.rs:16-43 XzCompression", "src/compression/mod.rs:72-108 Compression for CompressionType", "src/store/filesystem.rs:260-280 set"]}
{"id": "C103", "title": "A process with several threads dies in the middle of their calls", "statement": "Several threads of a process use one hierarchy, each making calls one after the other; no thread makes a call about something that another thread changes. The process is killed at any moment. Then every call that has returned has returned what it returns when its thread is alone, and its effect is kept: every file holds what it holds after just the calls that have returned, made one thread after the other, unless a call that has begun and not returned concerns it; such a file holds that, or what the unfinished call leaves, or a prefix of it. So the metadata, attributes and chunks that no unfinished call concerns read as after the returned calls.", "quantifier": "every number of threads, sequences of calls with ordinary names (also failing ones; removal, listing and boxes included), directory tree without files where directories of the nodes go, interleaving of system calls (every byte written is one), and moment of death", "why_tests_cant": "interleavings and moments are unbounded; the tests use one thread and do not kill processes", "anchors": ["src/store/filesystem.rs:191-312 ReadableStore, ListableStore and WriteableStore impls", "src/storage.rs: HierarchyReader and HierarchyWriter impls", "src/ndarray.rs"]}
{"id": "C104", "title": "Removing nodes of a hierarchy with symbolic links", "statement": "Parts of a hierarchy may be symbolic links, as in C99. Calls, remove among them, return what they return for a hierarchy with files and directories in place of the links, and what they leave shows the same again. remove deletes links and not what they lead to: whatever links there are, and whether it fails or not, every file, directory and link that is not the metadata of the node and not in its data directory is kept.", "quantifier": "every filesystem with links (absolute, relative, chained up to the limit of the system) without broken links in the hierarchy and without two paths to the same place there, base directory and node paths with ordinary names, and sequence of calls", "why_tests_cant": "arrangements of links and call sequences are unbounded; the tests use none", "anchors": ["src/store/filesystem.rs:294-312 erase_prefix", "src/store/filesystem.rs:282-292 erase", "src/storage.rs:444-454 remove"]}
{"id": "C105", "title": "A chunk is the part of the array at its bounds", "statement": "For a chunk that read_chunk returned: get_bounds gives the box of exactly the points that the chunk covers; as_ndarray and into_ndarray do not panic and give the same array, of the shape of a chunk, with every element at its place by the memory order of the array; read_ndarray of any box answers these elements at the points of the box that the chunk covers; write_ndarray of that array at the offset of the bounds does exactly what write_chunk of the chunk does; and a buffer that is reinitialized with the chunk equals it whatever it held.", "quantifier": "every filesystem state, array metadata, chunk shape and memory order, grid position, stored chunk, box and buffer", "why_tests_cant": "shapes, orders, positions and stored bytes are unbounded, and the chunks in question have up to 2^32 elements and more; the tests read a few small chunks", "anchors": ["src/chunk.rs:73-100 SliceDataChunk::new, into_data, reinitialize, reinitialize_with", "src/ndarray.rs:432-481 get_chunk_bounds, get_bounds, shape_ndarray_shape, as_ndarray, into_ndarray", "src/ndarray.rs:276-385 write_ndarray"]}
{"id": "C106", "title": "Machines and builds share a hierarchy", "statement": "Programs on machines of different byte order, built with different compression features, compression libraries and overflow checks, use one hierarchy. Every history of calls on nodes, attributes, metadata, chunks and boxes, each made by any one of the programs, gives the results that it gives on one map from paths to nodes and from paths and grid positions to chunks: what one program creates or writes, every other reads. The programs have to read each other's compressed data, and arrays have to be created with compressors that all of them have. A build without the compressor of an array sees the node and its attributes and can create nothing in its place, but gets an error for its metadata and finds no array.", "quantifier": "every set of programs (byte order, features, compression libraries, overflow checks) with the same JSON library, history of calls of C81 each by any of them, and directory without a hierarchy", "why_tests_cant": "the tests run one build on one machine; the pairs of machines and builds and the histories are unbounded, and a big-endian machine is not among the usual ones", "anchors": ["src/data_type.rs:425-432 endian", "src/chunk.rs: ReadableDataChunk and WriteableDataChunk impls", "src/compression/mod.rs:37-108 CompressionType and its features", "src/storage.rs:165-178 get_array_metadata", "src/lib.rs:229-231 array_exists"]}
{"id": "C107", "title": "Machines and builds use a hierarchy at the same time", "statement": "Programs on machines of different byte order, built with different compression features, compression libraries and overflow checks, use one hierarchy at the same time. After any history of calls made by any of them in a directory without a hierarchy, several programs each make any calls on nodes, attributes, metadata, chunks and boxes, including removals, one after the other; their system calls are interleaved in any way, and no program makes a call about something that another one changes. Every program gets exactly the results that its calls have on the one map of the history before, no program waits for another or runs forever, and when all have finished, any later history of calls by any of the programs gives the results that it gives on the map after the calls of all of them. The same holds for any number of such rounds.", "quantifier": "every set of programs with the same JSON library that read each other's compressed data, every history before, every number of programs, calls and interleaving of system calls, every history after, and every number of rounds", "why_tests_cant": "the tests run one build on one machine in one thread; the interleavings and histories are unbounded", "anchors": ["src/store/filesystem.rs:193-327 ReadableStore, ListableStore and WriteableStore impls", "src/storage.rs:144-486 HierarchyReader and HierarchyWriter impls", "src/ndarray.rs:154-388 ZarrNdarrayReader and ZarrNdarrayWriter", "src/data_type.rs:425-432 endian"]}
{"id": "C108", "title": "Listings show what a history has created", "statement": "After any history of calls by any programs in a directory without a hierarchy, list_nodes of the root or of a group returns the names of exactly those children that are nodes or through which the path of a node leads.", "quantifier": "every set of programs as in C106, history of calls of C81 each by any of them, listing program, node path with ordinary names, and directory without a hierarchy", "why_tests_cant": "histories and names are unbounded; the one test that lists nodes lists a single directory made without the library", "anchors": ["src/storage.rs:310-357 list_nodes", "src/store/filesystem.rs:226-254 list_dir", "src/storage.rs:444-454 remove", "src/store/filesystem.rs:282-292 erase"]}
{"id": "C109", "title": "The store calls that each call makes", "statement": "On any implementation of the store traits, whatever it answers, the store calls made by a call of the API are, in their order, the beginning of a fixed script of that call, and all of it if the call succeeds: create_array asks for the group document and the array document and writes the array document; create_group asks for both and writes the group document or nothing; set_attributes and list_attributes ask which document there is, read it once and write it at most once; remove erases the two documents and then the data prefix; a chunk call makes one store call; a box read gets each chunk that shares a point with the box and the array once, in increasing order, and nothing else; a box write gets and sets each such chunk that is not inside the box and only sets each one that is.", "quantifier": "every store, state and answers of the store (also errors and panics), every call of C93, path with ordinary names, metadata, and box that meets the array", "why_tests_cant": "the number of stores, answers and boxes is unbounded; the tests look at results on one store and never at the calls it receives", "anchors": ["src/storage.rs:144-486 HierarchyReader and HierarchyWriter impls", "src/ndarray.rs:195-268 read_ndarray_into_with_buffer", "src/ndarray.rs:276-385 write_ndarray", "src/lib.rs:229-231 array_exists"]}
{"id": "C110", "title": "Arrays can be grown and shrunk", "statement": "Box reads, box writes and removals are made with array metadata in which the shape differs from call to call and nothing else. They give the results that they give on plain unbounded arrays of elements, where a box write changes exactly the elements that are in the box and in the shape of the call: growing an array shows the fill value or what was written there before, shrinking it and growing it again loses nothing, and nothing that a write was given for points outside the array ever shows.", "quantifier": "every history of box reads inside the shape of the call, box writes and removals with ordinary paths, every shape of each call, chunk shape, memory order, byte order, compressor and directory without a hierarchy", "why_tests_cant": "the tests use every array with one shape; the histories of shapes and calls are unbounded", "anchors": ["src/ndarray.rs:276-385 write_ndarray", "src/ndarray.rs:154-268 read_ndarray, read_ndarray_into, read_ndarray_into_with_buffer", "src/ndarray.rs:402-443 bounded_coord_iter, get_bounds, get_chunk_bounds", "src/lib.rs:483-530 get_grid_extent, in_bounds"]}
{"id": "C111", "title": "Printed data types", "statement": "The printed form (Display) of a data type tells the type: different data types are printed differently. It is not the name of the type in metadata, and cannot be taken for one: no text that is accepted as a data type in metadata is the printed form of any data type.", "quantifier": "every data type, with every number of bits of raw types, and every text", "why_tests_cant": "the raw types and the texts are unbounded; no test prints a data type", "anchors": ["src/data_type.rs:446-450 Display for DataType", "src/data_type.rs:116-123 DataType", "src/data_type.rs:176-241 DataTypeVisitor"]}
{"id": "C112", "title": "Opening or creating a hierarchy keeps the files there are", "statement": "Whatever open_or_create returns, every file and directory that existed before still exists, the files with the same contents, and no file but zarr.json in the base directory is new. In particular an existing hierarchy is opened and never written over.", "quantifier": "every filesystem state and base path", "why_tests_cant": "base paths and directory trees are unbounded; it fails only for paths through a directory that does not exist", "anchors": ["src/store/filesystem.rs: open_or_create"]}
{"id": "C113", "title": "Hierarchies in one filesystem do not disturb each other", "statement": "Several programs use hierarchies in one filesystem at the same time, with handles, machines and builds of their own. Any two of them use hierarchies whose base directories differ, neither in the meta or data directory of the other (one may be inside the other elsewhere), or use the same hierarchy without a call about something the other changes. Then every call has the result it has if the other programs make no calls, no program waits for another or runs forever, the places of a program's calls are in the end as its calls leave them alone, and no other file changes. The same holds if the calls are made one after the other in any order.", "quantifier": "every number of programs and hierarchies, calls with ordinary names (also failing ones), directory tree without files where directories of the nodes go, and interleaving of system calls", "why_tests_cant": "tests use one hierarchy in a directory of its own; the base directories, the places of two hierarchies and the interleavings are unbounded", "anchors": ["src/store/filesystem.rs:138-312 get_path, ReadableStore, ListableStore and WriteableStore impls", "src/storage.rs: HierarchyReader and HierarchyWriter impls", "src/ndarray.rs: ZarrNdarrayReader and ZarrNdarrayWriter"]}
{"id": "C114", "title": "A program whose system calls fail disturbs no other", "statement": "Several programs use hierarchies in one filesystem as in the previous property, and any system call of any of them may fail, any number of times and with any error. A program none of whose own system calls fail gets the results it gets alone, after a number of system calls that does not depend on the others, and in the end the places of its calls are as its calls leave them alone. No program ever waits for another, not even for one whose system calls failed while it held a lock. No file changes other than those that some program's calls are about.", "quantifier": "every number of programs and hierarchies, calls, directory tree, interleaving of system calls and choice of the system calls that fail", "why_tests_cant": "failures of the file system cannot be provoked in tests, and their interleavings with other programs are unbounded", "anchors": ["src/store/filesystem.rs:195-312 ReadableStore, ListableStore and WriteableStore impls", "src/storage.rs: HierarchyReader and HierarchyWriter impls"]}
{"id": "C115", "title": "What a box read that stops leaves in the caller's array", "statement": "Whatever read_ndarray_into and read_ndarray_into_with_buffer return, and also when they panic, every element of the caller's array is the one that was there or the stored one: the stored chunks before some chunk in row-major order of the grid have been copied, each in full, and nothing else has changed. An error is that of reading a chunk of which nothing was copied. Reading again into the same array once every chunk is readable gives what reading into the array as it was at first gives.", "quantifier": "every array content, buffer, box, chunk store content and order, and every chunk at which the read stops", "why_tests_cant": "no test reads into an array with an unreadable chunk; the boxes, the chunks and their contents are unbounded", "anchors": ["src/ndarray.rs:178-268 read_ndarray_into, read_ndarray_into_with_buffer", "src/chunk.rs:288-301 read_chunk_into"]}
{"id": "C116", "title": "Boxes that share chunks, read and written at the same time", "statement": "Threads call write_ndarray and read_ndarray on one array at the same time; their boxes meet the array and may overlap and share chunks in any way, and every chunk they use is stored. Then no call fails, no thread waits or runs forever, and what a read returns in one chunk, and what a chunk holds when all threads have finished, is what some of the writes, made one after the other, make of the chunk as it was at first: a write is there with all of its part of the chunk or not at all. So every element is the first one or one that a write put there, and is the first one if no write has it in its box. No other file changes.", "quantifier": "every number of threads and of calls, box, array of values, order, grid and chunk content, and every interleaving of the system calls", "why_tests_cant": "interleavings, boxes and chunks are unbounded; updates can be lost here (C78), so there is no sequential result that a test could expect", "anchors": ["src/ndarray.rs:154-268 read_ndarray, read_ndarray_into_with_buffer", "src/ndarray.rs:276-385 write_ndarray", "src/store/filesystem.rs:196-300 get, set"]}
{"id": "C117", "title": "Racing reads, writes and deletions of one chunk", "statement": "Several threads call read_chunk, write_chunk and delete_chunk for the same chunk at the same time. Every read_chunk returns None, an error, the chunk there was at first or a chunk whose write_chunk has returned, never a chunk nobody wrote. Whenever no write_chunk is under way a read_chunk returns None, the chunk there was at first or one that was written, and no error; if nobody deletes, exactly the chunk of the write_chunk that ended last.", "quantifier": "every number of threads, chunks, calls per thread and interleaving of system calls and bytes, with files that lose their name while open; every compressor that gives back what it was given and finds nothing in an empty file", "why_tests_cant": "A test runs a few interleavings; the file system decides which system calls meet.", "anchors": ["src/storage.rs:206-235", "src/storage.rs:456-480", "src/store/filesystem.rs:196-210", "src/store/filesystem.rs:260-292"]}
{"id": "C118", "title": "Store calls on one key are linearizable", "statement": "Whatever get, set and erase calls several threads or processes make for one key at the same time, those that have returned have the results they have when they are made one after the other, in some order in which a call that returned before another began comes before it.", "quantifier": "every number of threads, first value, calls per thread and interleaving of system calls and bytes, with files that lose their name while open", "why_tests_cant": "An order has to be found for every interleaving; a test can only try a few and has no clock.", "anchors": ["src/store/filesystem.rs:196-210", "src/store/filesystem.rs:260-292"]}
{"id": "C119", "title": "The calls of one chunk in a sequence", "statement": "Several threads call read_chunk, write_chunk and delete_chunk for the same chunk at the same time. The calls that have returned, and some that are under way, can be put in one sequence in which a call that returned before another began comes before it, and in which every read_chunk that is Ok gives exactly the chunk that the calls before it left, or None if they left none. A read_chunk or delete_chunk that fails stands where there is no chunk. If there is a chunk at first and nobody deletes it, every read_chunk is Ok.", "quantifier": "every number of threads, chunks, calls per thread and interleaving of system calls and bytes, with files that lose their name while open; every compressor that gives back what it was given and finds nothing in an empty file, and array in which some chunk can be stored", "why_tests_cant": "A test cannot choose the interleaving, and the order of overlapping calls that would explain their results is not observed but has to be found.", "anchors": ["src/storage.rs:206-235", "src/storage.rs:456-480", "src/store/filesystem.rs:196-210", "src/store/filesystem.rs:260-292"]}
{"id": "C120", "title": "The spelling of a path does not matter", "statement": "Two paths are spellings of each other if one becomes the other by adding and removing slashes next to a slash or at an end and pieces that are a single dot. Every operation has the same result and the same effect for both; the URI of a chunk is spelled differently but names the same file. Paths that are not spellings of each other have different names.", "quantifier": "every hierarchy, metadata suffix, state of the filesystem and pair of paths, with `..` or not", "why_tests_cant": "There are infinitely many spellings of one path, and the path goes through joining, extensions and components in different orders in each operation.", "anchors": ["src/lib.rs:67-78", "src/lib.rs:184-214", "src/storage.rs:109-127", "src/storage.rs:310-357", "src/store/filesystem.rs:142-190"]}
{"id": "C121", "title": "A box write that succeeds is complete", "statement": "If write_ndarray returns Ok, the files hold every chunk it wrote in full, even when the device runs out of space during the call: they are the files the same call leaves on a device with unlimited space.", "quantifier": "every array with chunks in at least one dimension, compressor, box that shares a point with the array, elements, state of the filesystem and number of bytes that fit into the file of each chunk", "why_tests_cant": "The device must run out of space at chosen points of a call that writes several files; a test with a small disk hits one such point.", "anchors": ["src/ndarray.rs:276-385", "src/storage.rs:216-235", "src/store/filesystem.rs:260-292"]}
{"id": "C122", "title": "A box write that runs out of space harms only the chunks of the box", "statement": "Whatever write_ndarray returns when the device runs out of space during the call, no file changes except those of the chunks that share an element with the box. If the call would succeed with unlimited space, each of these chunks' files then holds what it held before, or a beginning of what it would hold, as long as fits.", "quantifier": "every array with chunks in at least one dimension, compressor, box that shares a point with the array, elements, state of the filesystem and number of bytes that fit into the file of each chunk", "why_tests_cant": "The call can fail at every byte of every chunk, and the room can change during the call.", "anchors": ["src/ndarray.rs:276-385", "src/storage.rs:216-235", "src/store/filesystem.rs:260-292"]}
