import Verif.Model.Groups

/-!
# Model of `communication/pscan.py`

`P` devices, `x i` is the input of device `i`. The carrier `α` stands for the whole (flattened) pytree
of arrays held by one device and `op` for the operator applied leaf by leaf and entry by entry.
-/

namespace Verif.Comm

/-- One entry of `schedule` (pscan.py 179-181). -/
structure ScanStage where
  target : ℕ → ℕ
  isBaseLo : ℕ → Bool
  isBaseHi : ℕ → Bool

/-- The body of the `while` loop that prepares the schedule (pscan.py 170-183). -/
def scanStage (n base : ℕ → ℕ) : ScanStage where
  isBaseLo i := decide (1 < n i) && decide (i = base i)
  isBaseHi i := decide (1 < n i) && decide (i = baseHi n base i)
  target i :=
    if decide (1 < n i) && decide (i = baseHi n base i) then base i
    else if decide (1 < n i) && decide (i = base i) then baseHi n base i
    else i

/-- The `while np.max(n.global_) > 1` loop (pscan.py 170-183). -/
def scanSchedule (P : ℕ) (n base : ℕ → ℕ) : List ScanStage :=
  if _h : 1 < maxGlobal P n then
    scanStage n base :: scanSchedule P (nextN n base) (nextBase n base)
  else []
termination_by maxGlobal P n
decreasing_by exact maxGlobal_next_lt P n base _h

/-- The variables of the fan-in loop: `red`, `scan`, and the last shuffled value `y` (initially
`None` in Python; here the input, it is not read before being set). -/
structure FanIn (α : Type*) where
  red : ℕ → α
  scan : ℕ → α
  y : ℕ → α

variable {α : Type*}

/-- Body of the fan-in loop (pscan.py 193-200). `scan` is kept up to date also when it is not
requested (the Python code skips it then; it is not read in that case). -/
def fanInStep (P : ℕ) (op : α → α → α) (s : ScanStage) (st : FanIn α) : Except String (FanIn α) := do
  let y ← pshuffle P s.target st.red
  .ok { red := fun i => if s.isBaseLo i then op (st.red i) (y i) else st.red i
        scan := fun i => if s.isBaseHi i then y i else st.scan i
        y := y }

/-- `for s in reversed(schedule)` (pscan.py 192-200). -/
def fanIn (P : ℕ) (op : α → α → α) : List ScanStage → FanIn α → Except String (FanIn α)
  | [], st => .ok st
  | s :: rest, st => do
    let st' ← fanIn P op rest st
    fanInStep P op s st'

/-- `for s in schedule[1:]` fan-out loop (pscan.py 217-221), for any `merge`. -/
def fanOut {β : Type*} (P : ℕ) (merge : β → β → β) : List ScanStage → (ℕ → β) → Except String (ℕ → β)
  | [], data => .ok data
  | s :: rest, data => do
    let y ← pshuffle P s.target data
    fanOut P merge rest (fun i => if s.isBaseHi i then merge (data i) (y i) else data i)

/-- The fan-in part of `_fanin_fanout_flat` (pscan.py 164-205): schedule, fan-in, and the merge into
the sole right child of the top stage when a reduction is requested. -/
def fanInAll (P : ℕ) (op : α → α → α) (unit : α) (x : ℕ → α) (reduction : Bool) :
    Except String (List ScanStage × FanIn α) := do
  let schedule := scanSchedule P (fun _ => P) (fun _ => 0)
  let st ← fanIn P op schedule { red := x, scan := fun _ => unit, y := x }
  match schedule with
  | [] => .ok (schedule, st)
  | s :: _ =>
    if reduction then
      .ok (schedule, { st with red := fun i => if s.isBaseHi i then op (st.y i) (st.red i) else st.red i })
    else .ok (schedule, st)

/-- `_fanin_fanout_flat` with `prefix_scan=True, reduction=False` (pscan.py 53-223), i.e.
`pscan(x, op)` (pscan.py 243-267). -/
def pscan (P : ℕ) (op : α → α → α) (unit : α) (x : ℕ → α) : Except String (ℕ → α) := do
  let (schedule, st) ← fanInAll P op unit x false
  fanOut P (fun x y => op y x) schedule.tail st.scan

/-- `_fanin_fanout_flat` with `prefix_scan=True, reduction=True`, i.e. `pscan(x, op, reduction=True)`
(pscan.py 243-267): pairs (scan, reduction). -/
def pscanReduce (P : ℕ) (op : α → α → α) (unit : α) (x : ℕ → α) : Except String (ℕ → α × α) := do
  let (schedule, st) ← fanInAll P op unit x true
  fanOut P (fun x y => (op y.1 x.1, y.2)) schedule.tail (fun i => (st.scan i, st.red i))

/-- `_fanin_fanout_flat` with `prefix_scan=False, reduction=True`: the branch of `preduce`
(pscan.py 294-296) for the operators without a built in collective. -/
def preduce (P : ℕ) (op : α → α → α) (unit : α) (x : ℕ → α) : Except String (ℕ → α) := do
  let (schedule, st) ← fanInAll P op unit x true
  fanOut P (fun _ y => y) schedule.tail st.red

end Verif.Comm
