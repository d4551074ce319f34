import Verif.Model.Groups
import Mathlib.Data.Nat.Size
import Mathlib.Data.List.Basic

/-!
# Model of `communication/crystal_router.py`

A row (type `ρ`) stands for the entries at one position of all the leaves of the flattened pytree:
`target`, the data leaves, and, when requested, `source`. `tgt r` is the entry of the `target` leaf.
The arrays of device `p` are a list of rows (its length is the static length) and a dynamic length.
Integer overflow of the lengths is not modelled.
-/

namespace Verif.Comm

/-- `CrystalData` on one device (crystal_router.py 135-138). -/
structure CrystalData (ρ : Type*) where
  data : List ρ
  n : ℕ

variable {ρ : Type*}

/-- `_pad_to_size` (crystal_router.py 113-132): truncate or pad with zeros; `z` is the row of zeros. -/
def padToSize (z : ρ) (data : List ρ) (size : ℕ) : List ρ :=
  if data.length = size then data
  else if data.length > size then data.take size
  else data ++ List.replicate (size - data.length) z

/-- `CrystalData.resize` (crystal_router.py 140-145). -/
def CrystalData.resize (z : ρ) (c : CrystalData ρ) (size : ℕ) : CrystalData ρ :=
  { data := padToSize z c.data size, n := c.n }

/-- `CrystalData.select` (crystal_router.py 147-152). The mask may depend on the position and the row.
`f` is the row of fill values that out of range indices read. -/
def CrystalData.select (f : ρ) (c : CrystalData ρ) (mask : ℕ → ρ → Bool) (size : ℕ) : CrystalData ρ :=
  let picked := (c.data.zipIdx.filter (fun rj => mask rj.2 rj.1)).map Prod.fst
  { data := picked.take size ++ List.replicate (size - picked.length) f
    n := picked.length }

/-- `lax.dynamic_update_slice(a, b, (start,))` for `len(b) ≤ len(a)`: the start index is clamped so
that all of `b` fits. -/
def dynamicUpdateSlice (a b : List ρ) (start : ℕ) : List ρ :=
  let s := min start (a.length - b.length)
  a.take s ++ b ++ a.drop (s + b.length)

/-- `CrystalData.__add__` (crystal_router.py 154-177). -/
def CrystalData.add (c d : CrystalData ρ) : CrystalData ρ :=
  { data := dynamicUpdateSlice c.data d.data c.n, n := c.n + d.n }

/-- `_bit_ceil` (crystal_router.py 180-182); `np.frexp(m)[1]` is the bit length of `m`. -/
def bitCeil (n : ℕ) : ℕ := if n = 0 then 0 else 1 <<< (n - 1).size

/-! Partners of a stage (crystal_router.py 331-347), as functions of the device index. -/

/-- `target1 = n - 1 - (idx - base_lo) + base_lo` (crystal_router.py 336). -/
def target1 (n base : ℕ → ℕ) (i : ℕ) : ℕ := n i - 1 - (i - base i) + base i

/-- `is_self_target` (crystal_router.py 343). -/
def isSelfTarget (n base : ℕ → ℕ) (i : ℕ) : Bool := decide (target1 n base i = i)

/-- `is_recvn_two` (crystal_router.py 344). -/
def isRecvTwo (n base : ℕ → ℕ) (i : ℕ) : Bool := decide (n i % 2 = 1) && decide (i = baseHi n base i)

/-- `num_recv` (crystal_router.py 337, 345). -/
def numRecv (n base : ℕ → ℕ) (i : ℕ) : ℕ :=
  (1 - (isSelfTarget n base i).toNat) + (isRecvTwo n base i).toNat

/-- `target2` (crystal_router.py 346-347). -/
def target2 (n base : ℕ → ℕ) (i : ℕ) : ℕ :=
  if isRecvTwo n base i then i - 1 else if isSelfTarget n base i then baseHi n base i else i

/-- `_crystal_router_stage` (crystal_router.py 374-430). `z` zero row, `f` fill row. -/
def crystalStage (P : ℕ) (tgt : ρ → ℤ) (z f : ρ) (n base : ℕ → ℕ) (bufferSize : ℕ)
    (st : ℕ → CrystalData ρ) : Except String ((ℕ → CrystalData ρ) × ℕ) := do
  let cutoff := baseHi n base
  let mask (i j : ℕ) : Bool := decide (j < (st i).n)
  let loMask (i j : ℕ) (r : ρ) : Bool := mask i j && decide (tgt r < (cutoff i : ℤ))
  let keepMask (i j : ℕ) (r : ρ) : Bool := loMask i j r ^^ (mask i j && decide (cutoff i ≤ i))
  let sendMask (i j : ℕ) (r : ρ) : Bool := mask i j ^^ keepMask i j r
  let keep := fun i => (st i).select f (keepMask i) (bufferSize + (st i).data.length)
  let send := fun i => (st i).select f (sendMask i) (st i).data.length
  let send ← pshuffle P (target1 n base) send
  let keep := fun i => if numRecv n base i > 0 then (keep i).add (send i) else keep i
  let keep ← if maxGlobal P (numRecv n base) > 1 then do
      let send ← pshuffle P (target2 n base) send
      .ok (fun i => if numRecv n base i = 2 then (keep i).add (send i) else keep i)
    else .ok keep
  .ok (fun i => (keep i).resize z bufferSize, maxGlobal P (fun i => (keep i).n))

/-- The nested function `loop` of `_crystal_router_loop` (crystal_router.py 324-368). Both branches of a
`lax.cond` are traced, so the stage is evaluated (and can raise) even when its result is not used. -/
def crystalLoop (P : ℕ) (tgt : ρ → ℤ) (z f : ρ) (start bufferSize : ℕ) (n base : ℕ → ℕ)
    (st : ℕ → CrystalData ρ) (maxSize i : ℕ) : Except String ((ℕ → CrystalData ρ) × ℕ × ℕ) :=
  if _h : 1 < maxGlobal P n then do
    let stage ← crystalStage P tgt z f n base bufferSize st
    let (next, maxSize') :=
      if i ≥ start then stage else (fun p => (st p).resize z bufferSize, maxSize)
    if maxSize' > bufferSize then
      .ok (fun p => (st p).resize z bufferSize, maxSize', i)
    else
      crystalLoop P tgt z f start bufferSize (nextN n base) (nextBase n base) next maxSize' (i + 1)
  else .ok (st, maxSize, i)
termination_by maxGlobal P n
decreasing_by exact maxGlobal_next_lt P n base _h

/-- The `while True` loop of `crystal` (crystal_router.py 225-233), run at most `fuel` times; `none`
stands for "still running". -/
def crystalWhile (P : ℕ) (tgt : ρ → ℤ) (z f : ρ) :
    ℕ → ℕ → (ℕ → CrystalData ρ) → ℕ → Option (Except String (ℕ → CrystalData ρ))
  | 0, _, _, _ => none
  | fuel + 1, bufferSize, st, i =>
    match crystalLoop P tgt z f i bufferSize (fun _ => P) (fun _ => 0) st 0 0 with
    | .error e => some (.error e)
    | .ok (st', maxN, i') =>
      if maxN > bufferSize then
        crystalWhile P tgt z f fuel (bitCeil maxN) (fun p => (st' p).resize z (bitCeil maxN)) i'
      else
        some (.ok (fun p => { data := (st' p).data.take maxN, n := (st' p).n }))

/-- `crystal` (crystal_router.py 202-233) without a source array: `size` is the static length of the
inputs. -/
def crystalRouter (P : ℕ) (tgt : ρ → ℤ) (z f : ρ) (size fuel : ℕ) (st : ℕ → CrystalData ρ) :
    Option (Except String (ℕ → CrystalData ρ)) :=
  crystalWhile P tgt z f fuel (bitCeil size) (fun p => (st p).resize z (bitCeil size)) 0

/-- `crystal` with `append_source` (crystal_router.py 219-224): every row, padding included, gets a
further entry that is set to the index of the device. -/
def crystalRouterSource (P : ℕ) (tgt : ρ → ℤ) (z f : ρ) (fs : ℤ) (size fuel : ℕ)
    (st : ℕ → CrystalData ρ) : Option (Except String (ℕ → CrystalData (ρ × ℤ))) :=
  crystalWhile P (fun r => tgt r.1) (z, 0) (f, fs) fuel (bitCeil size)
    (fun p =>
      let c := (st p).resize z (bitCeil size)
      { data := c.data.map (fun r => (r, (p : ℤ))), n := c.n }) 0

/-- `crystal_router(n, data, target)` with `return_source=True` (crystal_router.py 57-109). A row of the
input is `(target, data)`, a row of the output is `(data, source)`: the `target` leaf is dropped. -/
def crystalRouterApi {δ : Type*} (P : ℕ) (z f : ℤ × δ) (fs : ℤ) (size fuel : ℕ)
    (st : ℕ → CrystalData (ℤ × δ)) : Option (Except String (ℕ → CrystalData (δ × ℤ))) :=
  match crystalRouterSource P Prod.fst z f fs size fuel st with
  | none => none
  | some (.error e) => some (.error e)
  | some (.ok out) =>
    some (.ok (fun p => { data := (out p).data.map (fun r => (r.1.2, r.2)), n := (out p).n }))

end Verif.Comm
