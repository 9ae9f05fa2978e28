import Verif.Model.Uuid
import Verif.Model.Base58
/-! # The short form of a UUID -/
namespace Gofer.Uuid

/-- `UUID.Base58` (uuid/uuid.go:73-75). -/
def base58 (u : Bytes) : Bytes := Base58.encodeForInt64 (UInt64.ofBitVec (toInt64 u))

end Gofer.Uuid
