import Verif.Model.Copy

/-!
# Saving chunks in the NumPy format

Model of `/repo/src/ddc/save_npy.hpp` and `/repo/src/ddc/save_npy.cpp`.

The stream is a list of bytes to which everything can be written: failures of the stream or of the
file system are not modelled, nor is the overload taking a file name (save_npy.cpp lines 101-107,
save_npy.hpp lines 139-153), which only opens the file.  `std::size_t` sizes that are lengths of
strings are natural numbers.
-/

namespace DDC.Npy

/-- `std::endian::native`: `some true` little, `some false` big, `none` neither. -/
abbrev Endian := Option Bool

/-- `NpyByteOrder` (save_npy.hpp line 22), by the character of each enumerator. -/
inductive ByteOrder
  | little
  | big
  | notApplicable
  deriving DecidableEq

/-- `static_cast<char>(byte_order)` (save_npy.hpp line 22). -/
def ByteOrder.char : ByteOrder → Char
  | little => '<'
  | big => '>'
  | notApplicable => '|'

/-- `NpyKind` (save_npy.hpp lines 26-33). -/
inductive Kind
  | boolean
  | signedInt
  | unsignedInt
  | floatingPoint
  | complex
  | other
  deriving DecidableEq

/-- `static_cast<char>(kind)` (save_npy.hpp lines 26-33). -/
def Kind.char : Kind → Char
  | boolean => 'b'
  | signedInt => 'i'
  | unsignedInt => 'u'
  | floatingPoint => 'f'
  | complex => 'c'
  | other => 'V'

/-- `NpyDtype` (save_npy.hpp lines 35-42). -/
structure Dtype where
  byteOrder : ByteOrder
  kind : Kind
  itemsize : U64
  deriving DecidableEq

/-- `get_byte_order(itemsize)` (save_npy.cpp lines 20-35). -/
def getByteOrder (e : Endian) (itemsize : U64) : ByteOrder :=
  if itemsize = 1 then .notApplicable
  else match e with
    | some true => .little
    | some false => .big
    | none => .notApplicable

/-- The element types, as the type traits of `convert_to_npy_dtype` see them. -/
inductive Scalar
  | bool
  | byte
  | complex
  | longDouble
  | floating
  | signed
  | unsigned
  | otherType
  deriving DecidableEq

/-- `convert_to_npy_dtype<T>()` (save_npy.hpp lines 44-81), where `size` is `sizeof(T)`. -/
def convertToNpyDtype (e : Endian) (t : Scalar) (size : U64) : Res Dtype :=
  match t with
  | .bool => .ok ⟨getByteOrder e size, .boolean, size⟩
  | .byte => .ok ⟨getByteOrder e size, .other, size⟩
  | .complex => .ok ⟨getByteOrder e size, .complex, size⟩
  | .longDouble => .ill
  | .floating => .ok ⟨getByteOrder e size, .floatingPoint, size⟩
  | .signed => .ok ⟨getByteOrder e size, .signedInt, size⟩
  | .unsigned => .ok ⟨getByteOrder e size, .unsignedInt, size⟩
  | .otherType => .ill

/-- `std::to_string(n)` of an unsigned integer: its decimal digits. -/
def toString (n : U64) : List Char := Nat.toDigits 10 n.toNat

/-- `NpyDtype::str()` (save_npy.cpp lines 50-54). -/
def Dtype.str (d : Dtype) : List Char := d.byteOrder.char :: d.kind.char :: toString d.itemsize

/-- A character literal of the program as a byte: all of them are ASCII. -/
def charByte (c : Char) : UInt8 := UInt8.ofNat c.toNat

/-- `write_le(os, value)` (save_npy.cpp lines 37-48). -/
def writeLe (v : BitVec 16) : List UInt8 :=
  [UInt8.ofNat (v &&& 0xFF#16).toNat, UInt8.ofNat ((v >>> 8) &&& 0xFF#16).toNat]

/-- `NpyArrayView` (save_npy.hpp lines 83-89): `data` are the bytes that can be read from the
pointer. -/
structure ArrayView where
  data : List UInt8
  dtype : Dtype
  shape : List U64
  fortranOrder : Bool

/-- The string `shape_str` (save_npy.cpp lines 60-65). -/
def shapeStr (shape : List U64) : List Char :=
  '(' :: shape.flatMap (fun n => toString n ++ ", ".toList) ++ ")".toList

/-- The string `header_dict` (save_npy.cpp lines 67-69). -/
def headerDict (v : ArrayView) : List Char :=
  "{'descr': '".toList ++ v.dtype.str ++ "', 'fortran_order': ".toList ++
    (if v.fortranOrder then "True".toList else "False".toList) ++ ", 'shape': ".toList ++
    shapeStr v.shape ++ ", }".toList

/-- `padding` (save_npy.cpp lines 71-76), from the length of the dictionary. -/
def padding (len : Nat) : Nat := (16 - (6 + 1 + 1 + 2 + (len + 1)) % 16) % 16

/-- `std::accumulate(shape.begin(), shape.end(), 1ULL, std::multiplies<>{})` (save_npy.cpp
lines 96-97): a left fold on `size_t`. -/
def nElems (shape : List U64) : U64 := shape.foldl (· * ·) 1

/-- `os.write(data, n)`: undefined if fewer bytes can be read. -/
def writeRaw (data : List UInt8) (n : Nat) : Res (List UInt8) :=
  if n ≤ data.length then .ok (data.take n) else .ub

/-- `save_npy(os, view)` (save_npy.cpp lines 57-99): the bytes written.  The padding is taken from a
literal of 15 spaces (line 92). -/
def saveNpy (v : ArrayView) : Res (List UInt8) := do
  let dict := headerDict v
  let nonPadded := dict.length + 1
  let pad := padding dict.length
  if 65535 < nonPadded + pad then .throw
  else do
    let len := BitVec.ofNat 16 (nonPadded + pad)
    let spaces ← writeRaw ((List.replicate 15 ' ').map charByte) pad
    let raw ← writeRaw v.data (nElems v.shape * v.dtype.itemsize).toNat
    pure ([0x93, 0x4E, 0x55, 0x4D, 0x50, 0x59] ++ [1] ++ [0] ++ writeLe len ++ dict.map charByte ++
      spaces ++ [charByte '\n'] ++ raw)

variable {τ : Type} [DecidableEq τ] {D α : Type}

/-- `to_np_array_view(chunk_span.allocation_mdspan())` (save_npy.hpp lines 91-105) for a host view in
memory `mem`; `enc` gives the bytes of an element. -/
def toNpArrayView (e : Endian) (t : Scalar) (size : U64) (enc : α → List UInt8) (mem : Mem α)
    (v : View D) : Res ArrayView := do
  let dtype ← convertToNpyDtype e t size
  match mem[v.buf]? with
  | some l => pure ⟨(l.drop v.span.md.off).flatMap enc, dtype, v.span.md.dims.map Prod.fst,
      decide (v.layout = .left)⟩
  | none => .ub

/-- `save_npy(os, chunk_span)` (save_npy.hpp lines 116-131); `host` is `Kokkos::HostSpace`, `sched1`
and `sched2` are the orders of the assignments of the two copies. -/
def saveChunk (ops : SpanOps τ D) (eq : D → D → Res Bool) (accessible : Nat → Nat → Bool)
    (junk : Nat → α) (sched1 sched2 : List (List U64)) (host : Nat) (e : Endian) (t : Scalar)
    (size : U64) (enc : α → List UInt8) (mem : Mem α) (src : View D) : Res (List UInt8) := do
  let (m1, v1) ← createLayoutRightViewAndCopy ops eq junk sched1 mem src
  let (m2, v2) ← createMirrorViewAndCopy ops eq accessible junk sched2 host m1 v1
  let a ← toNpArrayView e t size enc m2 v2
  saveNpy a

end DDC.Npy
