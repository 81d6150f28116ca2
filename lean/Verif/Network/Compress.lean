import Verif.Util.Bytes

/-!
# Message compression

Model of `core/network/src/compress.rs`.  The snappy codec is a parameter.
-/

namespace Axon.Compress

/-- The snappy codec (`snap::raw`): compression may fail, the length prefix may be unreadable,
decompression may fail. -/
structure Snappy where
  compressVec : Bytes → Option Bytes
  decompressLen : Bytes → Option Nat
  decompress : Bytes → Option Bytes

/-- What "lossless" means for the codec. -/
def Snappy.Lossless (s : Snappy) : Prop :=
  ∀ x y, s.compressVec x = some y → s.decompressLen y = some x.length ∧ s.decompress y = some x

/-- `COMPRESSION_SIZE_THRESHOLD`, `compress.rs:8` -/
def threshold : Nat := 1024
/-- `MAX_UNCOMPRESSED_LEN`, `compress.rs:11` -/
def maxLen : Nat := 2 ^ 23

/-- `Message::from_raw`, `compress.rs:36-41` -/
def fromRaw (data : Bytes) : Bytes := 0 :: data

/-- `Message::compress`, `compress.rs:49-64` -/
def compressMsg (s : Snappy) (inner : Bytes) : Bytes :=
  if inner.length > threshold then
    match s.compressVec (inner.drop 1) with
    | some res => 0x80 :: res
    | none => inner
  else inner

/-- `compress`, `compress.rs:111-113` -/
def compress (s : Snappy) (src : Bytes) : Bytes := compressMsg s (fromRaw src)

/-- `Message::decompress`, `compress.rs:67-99`; `none` is the error `InvalidData`. -/
def decompress (s : Snappy) : Bytes → Option Bytes
  | [] => none
  | flag :: rest =>
    if flag.toNat &&& 0x80 ≠ 0 then
      match s.decompressLen rest with
      | none => none
      | some n => if n > maxLen then none else s.decompress rest
    else some rest

end Axon.Compress
