import Mathlib.Data.List.Basic

/-!
# Specification of the NumPy file format, version 1.0

A decoder written from the format description (NEP 1): magic string, version, length of the header,
header, data.  The header is a Python literal: a dictionary with the keys `descr`, `fortran_order`
and `shape` in any order, with free spaces and an optional trailing comma, padded with spaces and
ended by a newline.  Independent of the model.
-/

namespace DDC.Spec.Npy

/-- A value of the dictionary. -/
inductive PyVal
  | str (s : List Char)
  | bool (b : Bool)
  | tuple (l : List Nat)
  deriving DecidableEq

/-- Skips spaces. -/
def skip (cs : List Char) : List Char := cs.dropWhile (· == ' ')

/-- Digits, most significant first. -/
def digitsVal (ds : List Char) : Nat := ds.foldl (fun a c => 10 * a + (c.toNat - '0'.toNat)) 0

/-- A decimal number. -/
def pNat (cs : List Char) : Option (Nat × List Char) :=
  match cs.takeWhile Char.isDigit with
  | [] => none
  | ds => some (digitsVal ds, cs.dropWhile Char.isDigit)

/-- The rest of a string literal, up to the closing quote. -/
def pStr (cs : List Char) : Option (List Char × List Char) :=
  match cs.dropWhile (· != '\'') with
  | _ :: r => some (cs.takeWhile (· != '\''), r)
  | [] => none

/-- The rest of a tuple, after the opening parenthesis or a comma: its entries, whether the last of
them is followed by a comma, and the remaining characters. -/
def pItems : Nat → List Char → Option (List Nat × Bool × List Char)
  | 0, _ => none
  | fuel + 1, cs =>
    match skip cs with
    | ')' :: r => some ([], true, r)
    | cs' => do
      let (n, r) ← pNat cs'
      match skip r with
      | ')' :: r => some ([n], false, r)
      | ',' :: r => do
        let (l, c, r) ← pItems fuel r
        some (n :: l, c, r)
      | _ => none

/-- A value.  `(5)` is not a tuple in Python, `(5,)` is. -/
def pVal (cs : List Char) : Option (PyVal × List Char) :=
  match skip cs with
  | '\'' :: r => do
    let (s, r) ← pStr r
    some (.str s, r)
  | '(' :: r => do
    let (l, c, r') ← pItems (r.length + 1) r
    if l.length = 1 ∧ c = false then none else some (.tuple l, r')
  | 'T' :: 'r' :: 'u' :: 'e' :: r => some (.bool true, r)
  | 'F' :: 'a' :: 'l' :: 's' :: 'e' :: r => some (.bool false, r)
  | _ => none

/-- The rest of a dictionary, after the opening brace or a comma. -/
def pEntries : Nat → List Char → Option (List (List Char × PyVal) × List Char)
  | 0, _ => none
  | fuel + 1, cs =>
    match skip cs with
    | '}' :: r => some ([], r)
    | '\'' :: r => do
      let (k, r) ← pStr r
      match skip r with
      | ':' :: r => do
        let (v, r) ← pVal r
        match skip r with
        | '}' :: r => some ([(k, v)], r)
        | ',' :: r => do
          let (l, r) ← pEntries fuel r
          some ((k, v) :: l, r)
        | _ => none
      | _ => none
    | _ => none

/-- Byte order character, kind character, size of an item in bytes. -/
structure Descr where
  order : Char
  kind : Char
  itemsize : Nat
  deriving DecidableEq

/-- An array protocol type string such as `<f8`. -/
def pDescr : List Char → Option Descr
  | o :: k :: ds =>
    if o = '<' ∨ o = '>' ∨ o = '|' then
      match pNat ds with
      | some (n, []) => some ⟨o, k, n⟩
      | _ => none
    else none
  | _ => none

/-- What a file says. -/
structure File where
  descr : Descr
  fortran : Bool
  shape : List Nat
  payload : List UInt8
  deriving DecidableEq

/-- Value of a key that must appear exactly once. -/
def key (k : String) (l : List (List Char × PyVal)) : Option PyVal :=
  match l.filter (fun e => e.1 == k.toList) with
  | [e] => some e.2
  | _ => none

/-- Decodes the characters of a header. -/
def pHeader (cs : List Char) : Option (Descr × Bool × List Nat) :=
  match skip cs with
  | '{' :: r => do
    let (l, r) ← pEntries (r.length + 1) r
    if skip r = ['\n'] ∧ l.length = 3 then
      match key "descr" l, key "fortran_order" l, key "shape" l with
      | some (.str d), some (.bool f), some (.tuple s) => do
        let d ← pDescr d
        some (d, f, s)
      | _, _, _ => none
    else none
  | _ => none

/-- Decodes a file: magic string, version 1.0, little-endian header length, header of exactly that
length whose end is at a multiple of 16 bytes, data. -/
def decode (bs : List UInt8) : Option File :=
  match bs with
  | 0x93 :: 0x4E :: 0x55 :: 0x4D :: 0x50 :: 0x59 :: 1 :: 0 :: lo :: hi :: r => do
    let len := lo.toNat + 256 * hi.toNat
    if len ≤ r.length ∧ (10 + len) % 16 = 0 then do
      let (d, f, s) ← pHeader ((r.take len).map (fun b => Char.ofNat b.toNat))
      some ⟨d, f, s, r.drop len⟩
    else none
  | _ => none

end DDC.Spec.Npy
