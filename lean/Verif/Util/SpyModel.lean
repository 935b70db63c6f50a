import Verif.Solver.Fl

/-! `Spy` (`include/sleipnir/util/spy.hpp`), which writes sparsity patterns to a file, and the reader in
`tools/spy.py`. -/

namespace Slp.SpyFile

open Slp (Fl)

/-- A byte of the file: `spy.hpp:108-113`. -/
abbrev Byte := Fin 256

/-- Byte `k` of a 32-bit integer, the least significant first. -/
def byteOf (num : ℤ) (k : ℕ) : Byte := Fin.ofNat 256 ((num / 256 ^ k) % 256).toNat

/-- The byte order of the machine (`spy.hpp:108-113`). -/
inductive Endian where
  | little
  | big

/-- How a 32-bit integer lies in memory. -/
def inMemory (native : Endian) (num : ℤ) : List Byte :=
  match native with
  | .little => [byteOf num 0, byteOf num 1, byteOf num 2, byteOf num 3]
  | .big => [byteOf num 3, byteOf num 2, byteOf num 1, byteOf num 0]

/-- The 32-bit integer with the given bytes, the least significant first. -/
def ofBytes (a b c d : Byte) : ℤ :=
  let u : ℤ := a.val + 256 * b.val + 65536 * c.val + 16777216 * d.val
  if u < 2147483648 then u else u - 4294967296

/-- `std::byteswap` (`spy.hpp:110`). -/
def byteswap (num : ℤ) : ℤ := ofBytes (byteOf num 3) (byteOf num 2) (byteOf num 1) (byteOf num 0)

/-- `write32le` (`spy.hpp:108-113`). The conversion of larger integers to `int32_t` keeps the low 32 bits, as `byteOf`
does. -/
def write32le (native : Endian) (num : ℤ) : List Byte :=
  match native with
  | .little => inMemory .little num
  | .big => inMemory .big (byteswap num)

/-- A string written with its length in front (`spy.hpp:61-71`). -/
def writeString (native : Endian) (s : List Byte) : List Byte := write32le native s.length ++ s

/-- What the constructor is given (`spy.hpp:57-59`). Strings are UTF-8 bytes. -/
structure Header where
  title : List Byte
  rowLabel : List Byte
  colLabel : List Byte
  rows : ℤ
  cols : ℤ

/-- The constructor (`spy.hpp:57-76`). -/
def writeHeader (native : Endian) (h : Header) : List Byte :=
  writeString native h.title ++ writeString native h.rowLabel ++ writeString native h.colLabel ++
    write32le native h.rows ++ write32le native h.cols

/-- A column-major sparse matrix: the stored entries of each column, as row and value, in storage order
(`spy.hpp:81-90`). -/
abbrev SparseColumns := List (List (ℤ × Fl))

/-- The sign character (`spy.hpp:91-97`). -/
noncomputable def signChar (value : Fl) : Byte :=
  if (0 : Fl) < value then 43 else if value < 0 then 45 else 48

/-- One coordinate (`spy.hpp:89-97`). -/
noncomputable def writeEntry (native : Endian) (k : ℕ) (e : ℤ × Fl) : List Byte :=
  write32le native e.1 ++ write32le native k ++ [signChar e.2]

/-- `add` (`spy.hpp:81-100`). -/
noncomputable def add (native : Endian) (mat : SparseColumns) : List Byte :=
  write32le native (mat.map List.length).sum ++
    (mat.zipIdx.flatMap fun c => c.1.flatMap fun e => writeEntry native c.2 e)

/-- The bytes of a file after the constructor and some calls of `add` (`spy.hpp:57-100`). -/
noncomputable def file (native : Endian) (h : Header) (mats : List SparseColumns) : List Byte :=
  writeHeader native h ++ mats.flatMap (add native)

/-! ### The reader -/

/-- `struct.unpack("<i", f.read(4))`: fails with `struct.error` if fewer than four bytes are left
(`tools/spy.py:27-37`). -/
def read32 : List Byte → Option (ℤ × List Byte)
  | a :: b :: c :: d :: rest => some (ofBytes a b c d, rest)
  | _ => none

/-- `size = struct.unpack("<i", f.read(4))[0]` and the `size` bytes after (`spy.py:27-34`). For negative sizes the format
is invalid. -/
def readString (bytes : List Byte) : Option (List Byte × List Byte) := do
  let (size, rest) ← read32 bytes
  if 0 ≤ size ∧ size ≤ rest.length then some (rest.take size.toNat, rest.drop size.toNat) else none

/-- A point of the plot: row (`y`), column (`x`), and 1, -1 or 0 (`v`) (`tools/spy.py:43-51`). -/
structure Point where
  row : ℤ
  col : ℤ
  sign : ℤ
  deriving DecidableEq

/-- One coordinate (`spy.py:43-51`). -/
def readPoint (bytes : List Byte) : Option (Point × List Byte) := do
  let (y, rest) ← read32 bytes
  let (x, rest) ← read32 rest
  match rest with
  | [] => none
  | s :: rest => some (⟨y, x, if s = 43 then 1 else if s = 45 then -1 else 0⟩, rest)

/-- The coordinates of one pattern (`spy.py:42-51`). -/
def readPoints : ℕ → List Byte → Option (List Point × List Byte)
  | 0, bytes => some ([], bytes)
  | n + 1, bytes => do
    let (p, rest) ← readPoint bytes
    let (ps, rest) ← readPoints n rest
    some (p :: ps, rest)

/-- One pattern (`spy.py:41-54`). -/
def readPattern (bytes : List Byte) : Option (List Point × List Byte) := do
  let (n, rest) ← read32 bytes
  readPoints n.toNat rest

theorem read32_length {bytes : List Byte} {n rest} (h : read32 bytes = some (n, rest)) :
    rest.length + 4 = bytes.length := by
  unfold read32 at h
  split at h
  · simp only [Option.some.injEq, Prod.mk.injEq] at h
    rw [← h.2]; simp
  · cases h

theorem readPoint_length {bytes : List Byte} {p rest} (h : readPoint bytes = some (p, rest)) :
    rest.length ≤ bytes.length := by
  simp only [readPoint, Option.bind_eq_bind, Option.bind_eq_some_iff] at h
  obtain ⟨⟨y, r1⟩, h1, ⟨x, r2⟩, h2, h3⟩ := h
  have := read32_length h1
  have := read32_length h2
  simp only at *
  split at h3
  · cases h3
  · simp only [Option.some.injEq, Prod.mk.injEq] at h3
    rw [← h3.2]
    simp only [List.length_cons] at *
    omega

theorem readPoints_length {n : ℕ} {bytes : List Byte} {ps rest} (h : readPoints n bytes = some (ps, rest)) :
    rest.length ≤ bytes.length := by
  induction n generalizing bytes ps rest with
  | zero => simp [readPoints] at h; rw [h.2]
  | succ n ih =>
    simp only [readPoints, Option.bind_eq_bind, Option.bind_eq_some_iff] at h
    obtain ⟨⟨p, r1⟩, h1, ⟨q, r2⟩, h2, h3⟩ := h
    simp only [Option.some.injEq, Prod.mk.injEq] at h3
    have := readPoint_length h1
    have := ih h2
    simp only at *
    rw [← h3.2]; omega

theorem readPattern_length {bytes : List Byte} {ps rest} (h : readPattern bytes = some (ps, rest)) :
    rest.length < bytes.length := by
  simp only [readPattern, Option.bind_eq_bind, Option.bind_eq_some_iff] at h
  obtain ⟨⟨n, r1⟩, h1, h2⟩ := h
  have := read32_length h1
  have := readPoints_length h2
  simp only at *
  omega

/-- The loop over the patterns, which ends at the first that is incomplete (`spy.py:39-59`). -/
def readPatterns (bytes : List Byte) : List (List Point) :=
  match _h : readPattern bytes with
  | some (ps, rest) => ps :: readPatterns rest
  | none => []
termination_by bytes.length
decreasing_by exact readPattern_length _h

/-- What the viewer reads from a file (`spy.py:26-59`). -/
def read (bytes : List Byte) : Option (Header × List (List Point)) := do
  let (title, rest) ← readString bytes
  let (rowLabel, rest) ← readString rest
  let (colLabel, rest) ← readString rest
  let (rows, rest) ← read32 rest
  let (cols, rest) ← read32 rest
  some (⟨title, rowLabel, colLabel, rows, cols⟩, readPatterns rest)

end Slp.SpyFile
