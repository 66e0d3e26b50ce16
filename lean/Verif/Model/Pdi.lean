import Verif.Model.Base

/-!
# Sharing data with PDI

Model of `/repo/src/ddc/pdi.hpp` and `/repo/src/ddc/pdi.cpp`.  The calls to the PDI library, and what
happens to the objects involved, form a trace.

Simplifications: a name is passed by value (PDI reads it during the call); the arguments of a call of
`PDI_share` are evaluated from left to right (they touch different members); PDI's return codes, which
the code ignores, are not modelled; nor is exhaustion of memory.
-/

namespace DDC.Pdi

abbrev Text := List Char

/-- `PDI_inout_t`: `PDI_NONE`, `PDI_IN`, `PDI_OUT`, `PDI_INOUT`, as two flags. -/
structure Access where
  in_ : Bool
  out : Bool
  deriving DecidableEq

def Access.OUT : Access := ⟨false, true⟩
def Access.INOUT : Access := ⟨true, true⟩

/-- What an `std::any` of `m_metadata` may hold: a copy of an arithmetic value, a `std::size_t`, or a
`std::vector<std::size_t>`. -/
inductive Stored (α : Type)
  | value (x : α)
  | size (n : U64)
  | sizes (l : List U64)
  deriving DecidableEq

/-- An address: in (or owned by) the node number `k` of `m_metadata`, or of an object of the caller. -/
inductive Ptr
  | node (k : Nat)
  | user (a : Nat)
  deriving DecidableEq

/-- What happens, in order. -/
inductive Act (α : Type)
  /-- the node `k` of `m_metadata` is created -/
  | store (k : Nat) (v : Stored α)
  /-- `PDI_share(name, ptr, access)` -/
  | share (name : Text) (p : Ptr) (acc : Access)
  /-- the lifetime of the object `a` of the caller ends -/
  | die (a : Nat)
  /-- `PDI_event(name)` -/
  | event (name : Text)
  /-- `PDI_reclaim(name)` -/
  | reclaim (name : Text)
  /-- the node `k` of `m_metadata` is destroyed -/
  | free (k : Nat)
  deriving DecidableEq

/-- The members of `PdiEvent` (pdi.hpp lines 33-37) and the trace so far. -/
structure Event (α : Type) where
  eventName : Text
  names : List Text
  metadata : List (Stored α)
  trace : List (Act α)
  deriving DecidableEq

variable {α : Type}

/-- The constructor (pdi.cpp line 26). -/
def create (name : Text) : Event α := ⟨name, [], [], []⟩

/-- `store_name(name)` (pdi.cpp lines 16-24): the name of the pointer returned. -/
def storeName (s : Event α) (name : Text) : Event α × Text := ({ s with names := s.names ++ [name] }, name)

/-- `store_scalar(t)` and `store_array(v)` (pdi.hpp lines 43-55): `std::list::emplace_back` adds a node
and leaves the others where they are. -/
def store (s : Event α) (v : Stored α) : Event α × Ptr :=
  ({ s with metadata := s.metadata ++ [v], trace := s.trace ++ [.store s.metadata.length v] }, .node s.metadata.length)

/-- A call of `PDI_share`. -/
def share (s : Event α) (name : Text) (p : Ptr) (acc : Access) : Event α :=
  { s with trace := s.trace ++ [.share name p acc] }

/-- An argument of `with`. -/
inductive Datum (α : Type)
  /-- a borrowed chunk, writable or not, with its data handle and its extents -/
  | chunk (writable : Bool) (a : Nat) (extents : List U64)
  /-- an arithmetic value at some address, as a mutable lvalue or otherwise -/
  | arith (mutableLvalue : Bool) (a : Nat) (x : α)
  /-- a C string of some length -/
  | cstring (a : Nat) (length : U64)

/-- `chunk_default_access_v`, `default_access_v` (pdi.hpp lines 22-29). -/
def defaultAccess (writable : Bool) : Access := if writable then .INOUT else .OUT

/-- `with<Access>(name, chunk)` (pdi.hpp lines 73-90). -/
def withChunk (s : Event α) (acc : Access) (name : Text) (writable : Bool) (a : Nat) (extents : List U64) :
    Res (Event α) := do
  Res.guardIll (!acc.in_ || (defaultAccess writable).in_)
  let (s, n) := storeName s (name ++ "_rank".toList)
  let (s, p) := store s (.size (BitVec.ofNat 64 extents.length))
  let s := share s n p .OUT
  let (s, n) := storeName s (name ++ "_extents".toList)
  let (s, p) := store s (.sizes extents)
  let s := share s n p .OUT
  let (s, n) := storeName s name
  pure (share s n (.user a) acc)

/-- `with<Access>(name, arithmetic)` (pdi.hpp lines 92-108). -/
def withArith (s : Event α) (acc : Access) (name : Text) (mutableLvalue : Bool) (a : Nat) (x : α) : Res (Event α) := do
  Res.guardIll (!acc.in_ || (defaultAccess mutableLvalue).in_)
  let (s, p) := if !acc.in_ then store s (.value x) else (s, .user a)
  let (s, n) := storeName s name
  pure (share s n p acc)

/-- `with(name, c_string)` (pdi.cpp lines 36-41). -/
def withCString (s : Event α) (name : Text) (a : Nat) (length : U64) : Event α :=
  let (s, n) := storeName s (name ++ "_size".toList)
  let (s, p) := store s (.size length)
  let s := share s n p .OUT
  let (s, n) := storeName s name
  share s n (.user a) .OUT

/-- All overloads of `with`, with an explicit or a deduced access (pdi.hpp lines 70-130). -/
def with' (s : Event α) (acc : Option Access) (name : Text) (d : Datum α) : Res (Event α) :=
  match acc, d with
  | some acc, .chunk w a l => withChunk s acc name w a l
  | none, .chunk w a l => withChunk s (defaultAccess w) name w a l
  | some acc, .arith m a x => withArith s acc name m a x
  | none, .arith m a x => withArith s (defaultAccess m) name m a x
  | some _, .cstring _ _ => .ill
  | none, .cstring a l => .ok (withCString s name a l)

/-- The destructor (pdi.cpp lines 28-34), then that of the members. -/
def destroy (s : Event α) : List (Act α) :=
  s.trace ++ [.event s.eventName] ++ s.names.map .reclaim ++ (List.range s.metadata.length).map .free

/-- One step of the life of a `PdiEvent`: a call of `with`, or the end of the life of an object of the
caller, for instance a temporary at the end of a full expression. -/
inductive Step (α : Type)
  | call (acc : Option Access) (name : Text) (d : Datum α)
  | die (a : Nat)

/-- One step. -/
def step (s : Event α) : Step α → Res (Event α)
  | .call acc name d => with' s acc name d
  | .die a => .ok { s with trace := s.trace ++ [.die a] }

/-- The whole life of a `PdiEvent`. -/
def life (name : Text) (steps : List (Step α)) : Res (List (Act α)) := do
  let s ← steps.foldlM step (create name)
  pure (destroy s)

/-- `expose_to_pdi` (pdi.hpp lines 135-145). -/
def expose (acc : Option Access) (name : Text) (d : Datum α) : Res (List (Act α)) :=
  life name [.call acc name d]

end DDC.Pdi
