import Verif.Model.ForEach

/-!
# Blocks of a domain

Model of `/repo/src/ddc/for_each_block.hpp` and `/repo/src/ddc/for_each_block.cpp`.
-/

namespace DDC

/-- What `host_for_each_block` uses of its `Support` template argument.
`SparseDiscreteDomain` is not an instance: the bodies of its `take_first` and
`remove_first` (sparse_discrete_domain.hpp lines 239-252) name a constructor that does
not exist, so the algorithm does not compile for it. -/
structure BlockOps (τ D : Type) where
  tags : D → List τ
  extents : D → Res (Vect τ)
  extent : τ → D → Res (Vect τ)
  /-- `Rebind<Support, TypeSeq<DDims...>>::type(doms...)`, the merging constructor. -/
  merge : List τ → List D → Res D
  takeFirst : D → Vect τ → Res D
  removeFirst : D → Vect τ → Res D

variable {τ : Type} [DecidableEq τ]

/-- Operations of contiguous domains. -/
def Dom.blockOps : BlockOps τ (Dom τ) :=
  ⟨Tup.tags, Dom.extents, Dom.extent, Dom.ofDomains, Dom.takeFirst, Dom.removeFirst⟩

/-- Operations of strided domains. -/
def SDom.blockOps : BlockOps τ (SDom τ) :=
  ⟨Tup.tags, fun d => .ok (SDom.extents d), SDom.extent, SDom.ofDomains, SDom.takeFirst, SDom.removeFirst⟩

namespace Block

/-- `is_power_of_2` (for_each_block.cpp lines 15-18). -/
def isPowerOf2 (n : U64) : Bool := decide (n > 0) && decide (n &&& (n - 1) = 0)

/-- `span[i]`, undefined out of range. -/
def at' (l : List I64) (i : Nat) : Res I64 :=
  match l[i]? with
  | some x => .ok x
  | none => .ub

/-- The loop of `distribute_blocks` (for_each_block.cpp lines 40-52).  `nb_blocks = 0` is
excluded by the caller; it is marked undefined to keep the recursion well-founded. -/
def distributeLoop (sizes : List I64) (nb : U64) (perDim : List I64) (dim : Nat) : Res (List I64) :=
  if nb = 1 then .ok perDim
  else if hz : nb = 0 then .ub
  else if hd : dim ≥ sizes.length then .throw
  else do
    let cur ← Block.at' perDim dim
    let twice ← sMul cur 2
    if sizes[dim].toInt ≥ twice.toInt then
      distributeLoop sizes (nb / 2) (perDim.set dim twice) dim
    else distributeLoop sizes nb perDim (dim + 1)
termination_by (nb.toNat, sizes.length - dim)
decreasing_by
  · refine Prod.Lex.left _ _ ?_
    have h0 : nb.toNat ≠ 0 := fun h => hz (BitVec.eq_of_toNat_eq (by simpa using h))
    rw [BitVec.toNat_udiv, show (2 : U64).toNat = 2 from rfl]
    omega
  · refine Prod.Lex.right _ ?_
    omega

/-- `distribute_blocks(nb_blocks, sizes, nb_blocks_per_dim)` (for_each_block.cpp lines
24-53); the two spans have the same length, the result is the content of the second. -/
def distribute (nb : U64) (sizes : List I64) : Res (List I64) :=
  if isPowerOf2 nb then distributeLoop sizes nb (sizes.map (fun _ => 1)) 0 else .throw

/-- The constructor of `ComputeBlockFn` (for_each_block.cpp lines 55-61): signed quotient
and remainder. -/
def computeBlockFn (extent nb : I64) : Res (I64 × I64) := do
  let q ← SDom.sDiv extent nb
  let r ← signedRes (Int.tmod extent.toInt nb.toInt)
  pure (q, r)

/-- `ComputeBlockFn::operator()` (for_each_block.cpp lines 63-69). -/
def blockSize (qr : I64 × I64) (i : Int) : Res I64 :=
  if i < qr.2.toInt then sAdd qr.1 1 else .ok qr.1

variable {D σ : Type}

/-- `detail::host_for_each_block` (for_each_block.hpp lines 37-57): the remaining
dimensions with their number of blocks, the one-dimensional blocks `doms1d`. -/
def forEachRec (ops : BlockOps τ D) (domain : D) (f : D → σ → Res σ) :
    List (τ × I64) → List D → σ → Res σ
  | [], doms1d, s => do
    let b ← ops.merge (ops.tags domain) doms1d
    f b s
  | (q, nb) :: rest, doms1d, s => do
    let ext ← ops.extent q domain
    let n ← Tup.get q ext
    let qr ← computeBlockFn n nb
    let dom1d ← ops.merge [q] [domain]
    let r ← Support.loop nb.toInt (fun ib (st : σ × D) => do
      let n ← blockSize qr ib
      let block : Vect τ := [(q, n)]
      let t ← ops.takeFirst st.2 block
      let s ← forEachRec ops domain f rest (doms1d ++ [t]) st.1
      let dom1d ← ops.removeFirst st.2 block
      pure (s, dom1d)) 0 (s, dom1d)
    pure r.1

/-- `host_for_each_block(domain, nb_blocks_per_dim, f)` (for_each_block.hpp lines 72-78). -/
def forEach (ops : BlockOps τ D) (domain : D) (nb : Vect τ) (f : D → σ → Res σ) (s : σ) : Res σ :=
  Res.noexcept (forEachRec ops domain f ((ops.tags domain).zip nb.vals) [] s)

/-- `host_for_each_block(domain, nb_blocks, f)` with a total number of blocks
(for_each_block.hpp lines 92-101). -/
def forEachTotal (ops : BlockOps τ D) (domain : D) (nb : U64) (f : D → σ → Res σ) (s : σ) : Res σ :=
  Res.noexcept do
    let n ← ops.extents domain
    let per ← distribute nb n.vals
    forEach ops domain ((ops.tags domain).zip per) f s

end Block
end DDC
