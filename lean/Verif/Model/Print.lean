import Verif.Model.Copy

/-!
# Printing chunks

Model of `/repo/src/ddc/print.hpp` and `/repo/src/ddc/print.cpp`.

The text is a list of characters.  `fmt x` is what `os << x` writes: the width of the stream is
taken to be 0, and the copy of the format made by `saveformat` (print.cpp lines 34-37) is exact, so
that `get_element_width` measures `fmt x`.  Names of types (`print_demangled_type_name`,
print.cpp lines 53-70) are given.  The lock is not modelled except in the two steps of
`set_print_options`.
-/

namespace DDC.Print

/-- What is written to a stream. -/
abbrev Text := List Char

/-- `PrinterOptions` (print.hpp lines 26-32). -/
structure Options where
  threshold : U64
  edgeitems : U64
  deriving DecidableEq

/-- `PrinterOptions()`, also the initial options of the printer (print.hpp lines 28-29, 48). -/
def Options.default : Options := ⟨10, 3⟩

/-- First step of `set_print_options` (print.cpp line 104): the old options are read, before the
lock is taken. -/
def setRead (cur : Options) : Options := cur

/-- Second step of `set_print_options` (print.cpp lines 107-116), under the lock: the options of the
printer afterwards. -/
def setWrite (cur options : Options) : Options :=
  if options.edgeitems < options.threshold / 2 then options else cur

/-- `set_print_options(options)` (print.cpp lines 100-119): the options of the printer afterwards and
the returned value. -/
def setPrintOptions (cur options : Options) : Options × Options := (setWrite cur options, setRead cur)

/-- The values of `i` in `for (i = b; i < b + k; ++i)`. -/
def upTo (b : U64) : Nat → List U64
  | 0 => []
  | k + 1 => b :: upTo (b + 1) k

/-- The values of `i` in `for (std::size_t i = b; i < e; ++i)`. -/
def loop (b e : U64) : List U64 := upTo b (e.toNat - b.toNat)

/-- `std::max(a, b)`. -/
def umax (a b : U64) : U64 := if a < b then b else a

variable {α : Type}

/-- `get_element_width(elem)` (print.hpp lines 74-80). -/
def elementWidth (fmt : α → Text) (x : α) : U64 := BitVec.ofNat 64 (fmt x).length

/-- `display_aligned_element(os, elem, largest_element)` (print.hpp lines 85-94). -/
def displayAligned (fmt : α → Text) (x : α) (largest : U64) : Text :=
  List.replicate (largest - elementWidth fmt x).toNat ' ' ++ fmt x

/-- `align(os, level)` (print.cpp lines 39-45). -/
def align (level : Nat) : Text := List.replicate (level + 1) ' '

/-- `span[i...]` on an array of buffer `buf`. -/
def elemAt (mem : Mem α) (buf : Nat) (m : MDSpan) (is : List U64) : Res α := do
  let p ← m.access is
  mem.read buf p

/-- `span.extent(0)`. -/
def extent0 (m : MDSpan) : U64 :=
  match m.dims with
  | (n, _) :: _ => n
  | [] => 0

/-- `base_case_display` (print.hpp lines 99-115). -/
def baseCaseDisplay (fmt : α → Text) (mem : Mem α) (buf : Nat) (m : MDSpan) (largest b e extent : U64) : Res Text := do
  let parts ← (loop b e).mapM (fun i => do
    let x ← elemAt mem buf m [i]
    pure (displayAligned fmt x largest ++ if i < extent - 1 then [' '] else []))
  pure parts.flatten

/-- `Kokkos::submdspan(span, i0, full_extent...)` with `r` remaining dimensions. -/
def subFirst (m : MDSpan) (i : U64) (r : Nat) : Res MDSpan := m.sub (.index i :: List.replicate r .full)

/-- `recursive_display` (print.hpp lines 120-146), where `printRec` is `print_impl` at the next level
and `r` is `sizeof...(Is)`. -/
def recursiveDisplay (printRec : MDSpan → Res Text) (m : MDSpan) (r level : Nat) (b e : U64) : Res Text := do
  let parts ← (loop b e).mapM (fun i => do
    let s ← subFirst m i r
    let t ← printRec s
    pure (t ++ if i < e - 1 then List.replicate r '\n' ++ align level else []))
  pure parts.flatten

/-- `print_impl` (print.hpp lines 152-237) on an array of the given rank. -/
def printImpl (fmt : α → Text) (o : Options) (mem : Mem α) (buf : Nat) : Nat → MDSpan → Nat → U64 → Res Text
  | 0, m, _, _ => do
    let x ← mem.read buf m.off
    pure (fmt x)
  | 1, m, _, largest =>
    if extent0 m < o.threshold then do
      let t ← baseCaseDisplay fmt mem buf m largest 0 (extent0 m) (extent0 m)
      pure ("[".toList ++ t ++ "]".toList)
    else do
      let t1 ← baseCaseDisplay fmt mem buf m largest 0 o.edgeitems (extent0 m)
      let t2 ← baseCaseDisplay fmt mem buf m largest (extent0 m - o.edgeitems) (extent0 m) (extent0 m)
      pure ("[".toList ++ t1 ++ "... ".toList ++ t2 ++ "]".toList)
  | r + 2, m, level, largest =>
    let printRec := fun s => printImpl fmt o mem buf (r + 1) s (level + 1) largest
    let newline := List.replicate (r + 1) '\n' ++ align level
    if extent0 m < o.threshold then do
      let t ← recursiveDisplay printRec m (r + 1) level 0 (extent0 m)
      pure ("[".toList ++ t ++ "]".toList)
    else do
      let t1 ← recursiveDisplay printRec m (r + 1) level 0 o.edgeitems
      let t2 ← recursiveDisplay printRec m (r + 1) level (extent0 m - o.edgeitems) (extent0 m)
      pure ("[".toList ++ t1 ++ newline ++ "...".toList ++ newline ++ t2 ++ "]".toList)

/-- One of the loops of `find_largest_displayed_element` (print.hpp lines 266-299). -/
def maxLoop (f : U64 → Res U64) (ret b e : U64) : Res U64 :=
  (loop b e).foldlM (fun ret i => do
    let w ← f i
    pure (umax ret w)) ret

/-- `find_largest_displayed_element` (print.hpp lines 240-304) on an array of the given rank. -/
def findLargest (fmt : α → Text) (o : Options) (mem : Mem α) (buf : Nat) : Nat → MDSpan → Res U64
  | 0, _ => .ok 0
  | 1, m =>
    let width := fun i => do
      let x ← elemAt mem buf m [i]
      pure (elementWidth fmt x)
    if extent0 m < o.threshold then maxLoop width 0 0 (extent0 m)
    else do
      let ret ← maxLoop width 0 0 o.edgeitems
      maxLoop width ret (extent0 m - o.edgeitems) (extent0 m)
  | r + 2, m =>
    let width := fun i => do
      let s ← subFirst m i (r + 1)
      findLargest fmt o mem buf (r + 1) s
    if extent0 m < o.threshold then maxLoop width 0 0 (extent0 m)
    else do
      let ret ← maxLoop width 0 0 o.edgeitems
      maxLoop width ret (extent0 m - o.edgeitems) (extent0 m)

/-- A signed integer in decimal. -/
def decimal (n : I64) : Text :=
  if n.toInt < 0 then '-' :: Nat.toDigits 10 n.toInt.natAbs else Nat.toDigits 10 n.toInt.natAbs

/-- `print_single_dim_name` (print.cpp lines 72-79). -/
def printSingleDimName (dim : Text) (size : I64) : Text := dim ++ "(".toList ++ decimal size ++ ")".toList

/-- `print_dim_name` (print.cpp lines 81-96), the names and the extents of the dimensions paired. -/
def printDimName : List (Text × I64) → Text
  | [] => "Scalar".toList
  | d :: ds => printSingleDimName d.1 d.2 ++ ds.flatMap (fun d => "×".toList ++ printSingleDimName d.1 d.2)

variable {τ : Type} [DecidableEq τ] {D : Type}

/-- `print_content(os, chunk_span)` (print.hpp lines 351-385); `sched1` and `sched2` are the orders of
the assignments of the two copies, `host` is `Kokkos::HostSpace`. -/
def printContent (ops : SpanOps τ D) (eq : D → D → Res Bool) (accessible : Nat → Nat → Bool) (junk : Nat → α)
    (sched1 sched2 : List (List U64)) (host : Nat) (fmt : α → Text) (o : Options) (mem : Mem α) (src : View D) :
    Res Text := do
  let (m1, v1) ← createLayoutRightViewAndCopy ops eq junk sched1 mem src
  let (m2, v2) ← createMirrorViewAndCopy ops eq accessible junk sched2 host m1 v1
  let largest ← findLargest fmt o m2 v2.buf v2.span.md.dims.length v2.span.md
  printImpl fmt o m2 v2.buf v2.span.md.dims.length v2.span.md 0 largest

/-- `print_type_info(os, chunk_span)` (print.hpp lines 390-404); `typeName` is the name of the type of
the chunk and `name` gives the names of the tags. -/
def printTypeInfo (ops : SpanOps τ D) (name : τ → Text) (typeName : Text) (src : View D) : Res Text := do
  let x ← ops.extents src.span.dom
  pure (printDimName (x.map (fun p => (name p.1, p.2))) ++ "\n".toList ++ typeName ++ "\n".toList)

/-- `print(os, chunk_span)` (print.hpp lines 409-421). -/
def print (ops : SpanOps τ D) (eq : D → D → Res Bool) (accessible : Nat → Nat → Bool) (junk : Nat → α)
    (sched1 sched2 : List (List U64)) (host : Nat) (name : τ → Text) (typeName : Text) (fmt : α → Text) (o : Options)
    (mem : Mem α) (src : View D) : Res Text := do
  let t1 ← printTypeInfo ops name typeName src
  let t2 ← printContent ops eq accessible junk sched1 sched2 host fmt o mem src
  pure (t1 ++ t2)

/-- `print_full(os, chunk_span)` (print.hpp lines 427-445): the text and the options of the printer
afterwards. -/
def printFull (ops : SpanOps τ D) (eq : D → D → Res Bool) (accessible : Nat → Nat → Bool) (junk : Nat → α)
    (sched1 sched2 : List (List U64)) (host : Nat) (name : τ → Text) (typeName : Text) (fmt : α → Text) (cur : Options)
    (mem : Mem α) (src : View D) : Res (Text × Options) := do
  let (cur1, old) := setPrintOptions cur ⟨BitVec.allOnes 64, 1⟩
  let t ← print ops eq accessible junk sched1 sched2 host name typeName fmt cur1 mem src
  pure (t, (setPrintOptions cur1 old).1)

end DDC.Print
