import Verif.Model.DataType
/-!
# Printed data types (`src/data_type.rs`)
-/

namespace Zarr

/-- The derived `Debug` of `IntSize` (data_type.rs:15-21). -/
def IntSize.debug : IntSize → Str
  | .B1 => str!"B1" | .B2 => str!"B2" | .B4 => str!"B4" | .B8 => str!"B8"

/-- The derived `Debug` of `FloatSize` (data_type.rs:46-51). -/
def FloatSize.debug : FloatSize → Str
  | .B2 => str!"B2" | .B4 => str!"B4" | .B8 => str!"B8"

/-- The derived `Debug` of `Endian` (data_type.rs:74-78). -/
def Endian.debug : Endian → Str
  | .big => str!"Big" | .little => str!"Little"

/-- `impl Display for DataType` (data_type.rs:446-450): the derived `Debug` (data_type.rs:116-123). -/
def DataType.display : DataType → Str
  | .bool => str!"Bool"
  | .int s e => str!"Int { size: " ++ s.debug ++ str!", endian: " ++ e.debug ++ str!" }"
  | .uint s e => str!"UInt { size: " ++ s.debug ++ str!", endian: " ++ e.debug ++ str!" }"
  | .float s e => str!"Float { size: " ++ s.debug ++ str!", endian: " ++ e.debug ++ str!" }"
  | .raw n => str!"Raw { size: " ++ dec n ++ str!" }"

end Zarr
