import Verif.Model.Ndarray
/-!
# Chunks in the hands of the caller (`src/chunk.rs`, `src/ndarray.rs`)

What a caller can do with a chunk it was given, besides writing it. -/

namespace Zarr

/-- `VecDataChunk::reinitialize_with` (chunk.rs:96-100): position and data are taken from the other
chunk, the old data is cleared first. -/
def DataChunk.reinitializeWith {t : RsType} (c : DataChunk t) (other : DataChunk t) : DataChunk t :=
  { c with gridPosition := other.gridPosition, data := c.data.take 0 ++ other.data }

/-- `SliceDataChunk::get_bounds` (ndarray.rs:449-451). -/
def DataChunk.bounds {t : RsType} (c : DataChunk t) (m : ArrayMetadata) : BBox :=
  m.chunkBounds c.gridPosition

/-- `VecDataChunk::into_ndarray` (ndarray.rs:474-480) with `shape_ndarray_shape`
(ndarray.rs:453-462) and `into_data` (chunk.rs:81-83). -/
def intoNdarray (m : ArrayMetadata) {t : RsType} (c : DataChunk t) : Outcome (NdArr (El t)) :=
  fromShapeVec m.order (c.bounds m).shape c.data

end Zarr
