import Mathlib.Data.Int.Order.Basic
import Mathlib.Data.List.Basic

/-!
# Model of `niles/input_pipeline.py`

A shard is, for each of the keys `u`, `p`, `t`, a list of snapshots; the three lists of a shard are windowed in the same
way, so the model has one list per shard. Reading the files is not modelled: a shard file is its list of snapshots.
-/

namespace Verif.Niles

/-- Errors of the pipeline. -/
inductive PipeError
  /-- `range()` with a zero stride (input_pipeline.py 82). -/
  | rangeStep
  /-- a slice with a zero step (input_pipeline.py 85). -/
  | sliceStep
  /-- `np.stack` of no arrays (input_pipeline.py 86). -/
  | emptyStack
  /-- the assertion that the number of examples is divisible (input_pipeline.py 137). -/
  | notDivisible
  /-- `np.concatenate` of no arrays (input_pipeline.py 129). -/
  | emptyConcat
deriving DecidableEq, Repr

/-- `arr[a:b:step]` for `0 <= a`, `0 <= b`, `1 <= step`; `arr[::step]` is the recursion. -/
def everyNth {α : Type*} (step : ℕ) : ℕ → List α → List α
  | _, [] => []
  | 0, x :: l => x :: everyNth step (step - 1) l
  | k + 1, _ :: l => everyNth step k l

/-- `arr[a:b:step]`. -/
def pySlice {α : Type*} (arr : List α) (a b step : ℕ) : List α := everyNth step 0 ((arr.take b).drop a)

/-- The loop of `_windowed` (input_pipeline.py 81-85): `i` is the loop variable, `fuel` bounds the number of turns of
`range(0, len(arr), window_stride)`, which is at most `len(arr)`. -/
def windowLoop {α : Type*} (arr : List α) (size stride step : ℕ) : ℕ → ℕ → List (List α)
  | 0, _ => []
  | fuel + 1, i =>
    if i < arr.length then
      if i + size > arr.length then []
      else pySlice arr i (i + size) step :: windowLoop arr size stride step fuel (i + stride)
    else []

/-- `_windowed` (input_pipeline.py 80-86). -/
def windowed {α : Type*} (size stride step : ℕ) (arr : List α) : Except PipeError (List (List α)) :=
  if stride = 0 then .error .rangeStep
  else
    let windows := windowLoop arr size stride step arr.length 0
    if windows ≠ [] ∧ step = 0 then .error .sliceStep
    else if windows = [] then .error .emptyStack
    else .ok windows

/-- `tfds.Split.TRAIN`, `tfds.Split.VALIDATION`. -/
inductive Split
  | train
  | validation
deriving DecidableEq, Repr

/-- `NUM_SPLIT_EXAMPLES` (input_pipeline.py 30-33). -/
def numSplitExamples : Split → ℕ
  | .train => 6400 * 24
  | .validation => 6400 * 4

/-- `get_num_examples` (input_pipeline.py 47-58); the numbers are Python integers and may become negative. -/
def getNumExamples (split : Split) (size stride : ℤ) (debug : Bool) : ℤ :=
  let num : ℤ := numSplitExamples split
  let num := if debug then (if split = .train then num / 24 else num / 4) else num
  (num - size) / stride + 1

/-- `_TRAIN_SHARDS`, `_VALID_SHARDS` (input_pipeline.py 41-42). -/
def shardIds : Split → List ℕ
  | .train => List.range' 0 24
  | .validation => List.range' 24 4

/-- `_DATASET_FILENAME.format(i)` (input_pipeline.py 44): `{:02}` pads to two digits. -/
def shardName (i : ℕ) : String :=
  "filtered_dns_shard_" ++ (if i < 10 then "0" ++ toString i else toString i) ++ ".hdf5"

/-- `filenames` (input_pipeline.py 117-120). -/
def shardFiles (split : Split) (debug : Bool) : List String :=
  let names := (shardIds split).map shardName
  if debug then names.take 1 else names

/-- `_read_and_parse` on every file, then `np.concatenate` (input_pipeline.py 122-129); `read` is the contents of a
file. -/
def readAll {α : Type*} (read : String → List α) (size stride step : ℕ) : List String → Except PipeError (List (List α))
  | [] => .error .emptyConcat
  | [f] => windowed size stride step (read f)
  | f :: fs =>
    match windowed size stride step (read f) with
    | .error e => .error e
    | .ok ws =>
      match readAll read size stride step fs with
      | .error e => .error e
      | .ok rest => .ok (ws ++ rest)

/-- The part of `create_split` that selects the examples of one process (input_pipeline.py 106-143). `value[a:b]` with
possibly negative bounds cannot occur for positive `num_examples`; for others the slice is empty. -/
def createSplit {α : Type*} (read : String → List α) (split : Split) (size stride step : ℕ) (debug : Bool)
    (processCount processIndex : ℕ) : Except PipeError (List (List α)) :=
  match readAll read size stride step (shardFiles split debug) with
  | .error e => .error e
  | .ok snapshots =>
    let num := getNumExamples split size stride debug
    if num % processCount ≠ 0 then .error .notDivisible
    else
      let splitSize := (num / processCount).toNat
      let start := processIndex * splitSize
      .ok ((snapshots.drop start).take splitSize)

/-- One step of `tf.data`'s `shuffle` (input_pipeline.py 154): a full buffer, or the remaining buffer at the end of the
input, gives up the element at the random position `r`; the next input element takes its place. `fuel` bounds the number
of elements. -/
def shuffleLoop {α : Type*} (rand : ℕ → ℕ) : ℕ → ℕ → List α → List α → List α
  | 0, _, _, _ => []
  | fuel + 1, k, buf, input =>
    if h : buf = [] then []
    else
      let r := rand k % buf.length
      have hr : r < buf.length := Nat.mod_lt _ (List.length_pos_iff.mpr h)
      match input with
      | [] => buf[r] :: shuffleLoop rand fuel (k + 1) (buf.eraseIdx r) []
      | x :: rest => buf[r] :: shuffleLoop rand fuel (k + 1) (buf.eraseIdx r ++ [x]) rest

/-- `ds.shuffle(bufferSize)` for one pass over the data, with the random numbers `rand`. -/
def shuffle {α : Type*} (rand : ℕ → ℕ) (bufferSize : ℕ) (ds : List α) : List α :=
  shuffleLoop rand ds.length 0 (ds.take bufferSize) (ds.drop bufferSize)

/-- `ds.batch(batch_size, drop_remainder=True)` (input_pipeline.py 155). -/
def batches {α : Type*} (batchSize : ℕ) (ds : List α) : List (List α) :=
  (List.range (ds.length / batchSize)).map (fun i => (ds.drop (i * batchSize)).take batchSize)

/-- The batches of epoch `e` (input_pipeline.py 154-156): the data are shuffled anew in every repetition. -/
def epoch {α : Type*} (rand : ℕ → ℕ → ℕ) (batchSize : ℕ) (ds : List α) (e : ℕ) : List (List α) :=
  batches batchSize (shuffle (rand e) (8 * batchSize) ds)

/-- `prepare_tf_data` (train.py 476-487): a host batch is split over the local devices; `reshape` fails unless the size
is divisible. -/
def toDevices {α : Type*} (devices : ℕ) (batch : List α) : Option (List (List α)) :=
  if devices = 0 ∨ batch.length % devices ≠ 0 then none
  else some ((List.range devices).map
    (fun i => (batch.drop (i * (batch.length / devices))).take (batch.length / devices)))

end Verif.Niles
