import Verif.Lemmas.PScan
import Mathlib.Tactic.Linarith
import Mathlib.Data.Nat.Cast.Order.Ring
import Verif.Model.ScanUnits
import Verif.Spec.Fold

/-!
# C02, C03, C05, C06: parallel prefix scan and all-reduce
-/

namespace Verif.Comm

open Verif.Spec

variable {α : Type*}

/-- C02. For every number `P` of devices, every associative operator (commutative or not) with identity
`unit` and every input, `pscan` succeeds and returns on device `i` the combination of the inputs of
the devices before `i`, in device order. -/
theorem C02_pscan_exclusive_prefix (P : ℕ) (op : α → α → α) (unit : α)
    (hassoc : ∀ a b c, op (op a b) c = op a (op b c))
    (hleft : ∀ a, op unit a = a) (hright : ∀ a, op a unit = a) (x : ℕ → α) :
    ∃ r, pscan P op unit x = .ok r ∧ ∀ i < P, r i = exclusivePrefix op unit x i := by
  have hm : IsMonoidOn (fun _ => True) op unit :=
    ⟨trivial, fun _ _ _ _ => trivial, fun a b c _ _ _ => hassoc a b c, fun a _ => hleft a, fun a _ => hright a⟩
  obtain ⟨r, h1, h2⟩ := pscan_spec (P := P) hm (x := x) (fun _ => trivial)
  exact ⟨r, h1, fun i hi => by rw [h2 i hi, seg_zero]; rfl⟩

/-- Lists under concatenation are a non commutative instance of the hypotheses. -/
example : (∀ a b c : List ℕ, (a ++ b) ++ c = a ++ (b ++ c)) ∧ (∀ a : List ℕ, [] ++ a = a) ∧
    (∀ a : List ℕ, a ++ [] = a) ∧ [1] ++ [2] ≠ [2] ++ [1] ∧
    exclusivePrefix (· ++ ·) [] (fun i => [i]) 4 = [0, 1, 2, 3] := by
  refine ⟨List.append_assoc, List.nil_append, List.append_nil, by decide, by decide⟩

theorem exclusivePrefix_succ {S : α → Prop} {op : α → α → α} {unit : α} (hm : IsMonoidOn S op unit) {x : ℕ → α}
    (hx : ∀ i, S (x i)) (i : ℕ) : exclusivePrefix op unit x (i + 1) = inclusivePrefix op x i := by
  induction i with
  | zero => simp [exclusivePrefix, inclusivePrefix, hm.left_id _ (hx 0)]
  | succ i ih =>
    rw [inclusivePrefix, ← ih]
    simp [exclusivePrefix, List.range_succ]

/-- C03. With the same hypotheses the reduction returned by `pscan(reduction=True)` and by `preduce` is
the combination of all inputs, on every device; the scan part is unchanged. -/
theorem C03_allreduce_everywhere (P : ℕ) (op : α → α → α) (unit : α)
    (hassoc : ∀ a b c, op (op a b) c = op a (op b c))
    (hleft : ∀ a, op unit a = a) (hright : ∀ a, op a unit = a) (x : ℕ → α) :
    (∃ r, pscanReduce P op unit x = .ok r ∧
      ∀ i < P, (r i).1 = exclusivePrefix op unit x i ∧ (r i).2 = inclusivePrefix op x (P - 1)) ∧
    (∃ r, preduce P op unit x = .ok r ∧ ∀ i < P, r i = inclusivePrefix op x (P - 1)) := by
  have hm : IsMonoidOn (fun _ => True) op unit :=
    ⟨trivial, fun _ _ _ _ => trivial, fun a b c _ _ _ => hassoc a b c, fun a _ => hleft a, fun a _ => hright a⟩
  have key : ∀ i < P, seg op unit x 0 P = inclusivePrefix op x (P - 1) := by
    intro i hi
    rw [← exclusivePrefix_succ hm (fun _ => trivial), seg_zero]
    unfold exclusivePrefix
    rw [Nat.sub_add_cancel (by omega)]
  obtain ⟨r, h1, h2⟩ := pscanReduce_spec (P := P) hm (x := x) (fun _ => trivial)
  obtain ⟨r', h1', h2'⟩ := preduce_spec (P := P) hm (x := x) (fun _ => trivial)
  refine ⟨⟨r, h1, fun i hi => ?_⟩, ⟨r', h1', fun i hi => ?_⟩⟩
  · rw [h2 i hi, seg_zero]; exact ⟨rfl, by rw [← key i hi, seg_zero]⟩
  · rw [h2' i hi, key i hi]

example : (∀ a b c : List ℕ, (a ++ b) ++ c = a ++ (b ++ c)) ∧ (∀ a : List ℕ, [] ++ a = a) ∧
    (∀ a : List ℕ, a ++ [] = a) ∧
    inclusivePrefix (· ++ ·) (fun i => [i]) (5 - 1) = [0, 1, 2, 3, 4] := by
  refine ⟨List.append_assoc, List.nil_append, List.append_nil, by decide⟩

/-! ### C05 -/

theorem intMin_le (w : ℕ) (hw : 0 < w) (a : BitVec w) : (BitVec.intMin w).toInt ≤ a.toInt := by
  have h1 := BitVec.le_toInt a
  have h2 : (BitVec.intMin w).toInt = -(2 ^ (w - 1) : ℤ) := by
    rw [BitVec.toInt_intMin_of_pos hw]
  omega

theorem le_intMax (w : ℕ) (a : BitVec w) : a.toInt ≤ (BitVec.intMax w).toInt := by
  have h1 := BitVec.toInt_lt (x := a)
  rw [BitVec.toInt_intMax]
  omega

private theorem ite_max_assoc {β : Type*} (f : β → ℤ) (a b c : β) :
    (if f (if f a ≤ f b then b else a) ≤ f c then c else (if f a ≤ f b then b else a)) =
    (if f a ≤ f (if f b ≤ f c then c else b) then (if f b ≤ f c then c else b) else a) := by
  split_ifs <;> first | rfl | omega

private theorem ite_min_assoc {β : Type*} (f : β → ℤ) (a b c : β) :
    (if f (if f a ≤ f b then a else b) ≤ f c then (if f a ≤ f b then a else b) else c) =
    (if f a ≤ f (if f b ≤ f c then b else c) then a else (if f b ≤ f c then b else c)) := by
  split_ifs <;> first | rfl | omega

/-- C05. For every operator of the table and every integer width the tabulated unit is a two sided
identity and the operator is associative: signed dtypes. -/
theorem C05_signed (w : ℕ) (hw : 0 < w) (o : ScanOp) :
    (∀ a b c, o.signed w (o.signed w a b) c = o.signed w a (o.signed w b c)) ∧
    (∀ a, o.signed w (o.unitSigned w) a = a) ∧ (∀ a, o.signed w a (o.unitSigned w) = a) := by
  cases o
  · exact ⟨BitVec.add_assoc, BitVec.zero_add, BitVec.add_zero⟩
  · exact ⟨BitVec.mul_assoc, BitVec.one_mul, BitVec.mul_one⟩
  · refine ⟨fun a b c => ite_max_assoc BitVec.toInt a b c, fun a => ?_, fun a => ?_⟩
    · exact if_pos (intMin_le w hw a)
    · change (if a.toInt ≤ (BitVec.intMin w).toInt then BitVec.intMin w else a) = a
      split
      · next h => exact BitVec.eq_of_toInt_eq (le_antisymm (intMin_le w hw a) h)
      · rfl
  · refine ⟨fun a b c => ite_min_assoc BitVec.toInt a b c, fun a => ?_, fun a => ?_⟩
    · change (if (BitVec.intMax w).toInt ≤ a.toInt then BitVec.intMax w else a) = a
      split
      · next h => exact BitVec.eq_of_toInt_eq (le_antisymm h (le_intMax w a))
      · rfl
    · exact if_pos (le_intMax w a)
  · refine ⟨BitVec.and_assoc, fun a => ?_, fun a => ?_⟩ <;>
      simp [ScanOp.signed, ScanOp.unitSigned]
  · refine ⟨BitVec.or_assoc, fun a => ?_, fun a => ?_⟩ <;>
      simp [ScanOp.signed, ScanOp.unitSigned]
  · refine ⟨BitVec.xor_assoc, fun a => ?_, fun a => ?_⟩ <;>
      simp [ScanOp.signed, ScanOp.unitSigned]

/-- C05 for unsigned dtypes. -/
theorem C05_unsigned (w : ℕ) (o : ScanOp) :
    (∀ a b c, o.unsigned w (o.unsigned w a b) c = o.unsigned w a (o.unsigned w b c)) ∧
    (∀ a, o.unsigned w (o.unitUnsigned w) a = a) ∧ (∀ a, o.unsigned w a (o.unitUnsigned w) = a) := by
  cases o
  · exact ⟨BitVec.add_assoc, BitVec.zero_add, BitVec.add_zero⟩
  · exact ⟨BitVec.mul_assoc, BitVec.one_mul, BitVec.mul_one⟩
  · refine ⟨fun a b c => ?_, fun a => ?_, fun a => ?_⟩
    · simp only [ScanOp.unsigned]
      split_ifs <;> first | rfl | omega
    · change (if (0#w).toNat ≤ a.toNat then a else 0#w) = a
      exact if_pos (by simp)
    · change (if a.toNat ≤ (0#w).toNat then 0#w else a) = a
      split
      · next h => exact BitVec.eq_of_toNat_eq (by simp at h ⊢; omega)
      · rfl
  · refine ⟨fun a b c => ?_, fun a => ?_, fun a => ?_⟩
    · simp only [ScanOp.unsigned]
      split_ifs <;> first | rfl | omega
    · have := a.isLt
      change (if (BitVec.allOnes w).toNat ≤ a.toNat then BitVec.allOnes w else a) = a
      split
      · next h => exact BitVec.eq_of_toNat_eq (by simp at h ⊢; omega)
      · rfl
    · have := a.isLt
      refine if_pos ?_
      change a.toNat ≤ (BitVec.allOnes w).toNat
      rw [BitVec.toNat_allOnes]; omega
  · refine ⟨BitVec.and_assoc, fun a => ?_, fun a => ?_⟩ <;>
      simp [ScanOp.unsigned, ScanOp.unitUnsigned]
  · refine ⟨BitVec.or_assoc, fun a => ?_, fun a => ?_⟩ <;>
      simp [ScanOp.unsigned, ScanOp.unitUnsigned]
  · refine ⟨BitVec.xor_assoc, fun a => ?_, fun a => ?_⟩ <;>
      simp [ScanOp.unsigned, ScanOp.unitUnsigned]

/-- C05 for `bool`. -/
theorem C05_bool (o : ScanOp) :
    (∀ a b c, o.bool (o.bool a b) c = o.bool a (o.bool b c)) ∧
    (∀ a, o.bool o.unitBool a = a) ∧ (∀ a, o.bool a o.unitBool = a) := by
  cases o <;> decide

/-- C05, consequence: on integer data of any width `pscan` returns on each device `i + 1` exactly
`x 0 op ... op x i`, overflow included, and the unit on device 0. -/
theorem C05_pscan_integers (w : ℕ) (hw : 0 < w) (o : ScanOp) (P : ℕ) (x : ℕ → BitVec w) :
    (∃ r, pscan P (o.signed w) (o.unitSigned w) x = .ok r ∧
      ∀ i, i + 1 < P → r (i + 1) = inclusivePrefix (o.signed w) x i) ∧
    (∃ r, pscan P (o.unsigned w) (o.unitUnsigned w) x = .ok r ∧
      ∀ i, i + 1 < P → r (i + 1) = inclusivePrefix (o.unsigned w) x i) := by
  obtain ⟨s1, s2, s3⟩ := C05_signed w hw o
  obtain ⟨u1, u2, u3⟩ := C05_unsigned w o
  obtain ⟨r, h1, h2⟩ := C02_pscan_exclusive_prefix P _ _ s1 s2 s3 x
  obtain ⟨r', h1', h2'⟩ := C02_pscan_exclusive_prefix P _ _ u1 u2 u3 x
  refine ⟨⟨r, h1, fun i hi => ?_⟩, ⟨r', h1', fun i hi => ?_⟩⟩
  · rw [h2 _ hi]
    exact exclusivePrefix_succ (S := fun _ => True)
      ⟨trivial, fun _ _ _ _ => trivial, fun a b c _ _ _ => s1 a b c, fun a _ => s2 a, fun a _ => s3 a⟩
      (fun _ => trivial) i
  · rw [h2' _ hi]
    exact exclusivePrefix_succ (S := fun _ => True)
      ⟨trivial, fun _ _ _ _ => trivial, fun a b c _ _ _ => u1 a b c, fun a _ => u2 a, fun a _ => u3 a⟩
      (fun _ => trivial) i

example : (0 < 8) ∧ ScanOp.signed 8 .add 100#8 100#8 = 200#8 ∧ (200#8).toInt = -56 ∧
    ScanOp.signed 8 .maximum (ScanOp.unitSigned 8 .maximum) 128#8 = 128#8 := by decide

/-! ### C06 -/

/-- C06 holds for float inputs without `-inf` (for `maximum`) resp. `+inf` (for `minimum`), where `M` is
the largest finite value of the dtype. What is missing: inputs that are infinite on that side. -/
theorem C06_float_extrema_partial (M : ℚ) (P : ℕ) (x : ℕ → XFloat) :
    ((∀ i, finite (-M) ≤ x i) → ∃ r, pscan P max (floatMaxUnit M) x = .ok r ∧
      ∀ i, i + 1 < P → r (i + 1) = inclusivePrefix max x i) ∧
    ((∀ i, x i ≤ finite M) → ∃ r, pscan P min (floatMinUnit M) x = .ok r ∧
      ∀ i, i + 1 < P → r (i + 1) = inclusivePrefix min x i) := by
  constructor
  · intro hx
    have hm : IsMonoidOn (fun a : XFloat => finite (-M) ≤ a) max (floatMaxUnit M) :=
      ⟨le_rfl, fun a b ha _ => le_trans ha (le_max_left a b), fun a b c _ _ _ => max_assoc a b c,
        fun a ha => max_eq_right ha, fun a ha => max_eq_left ha⟩
    obtain ⟨r, h1, h2⟩ := pscan_spec (P := P) hm hx
    refine ⟨r, h1, fun i hi => ?_⟩
    rw [h2 _ hi, seg_zero]
    exact exclusivePrefix_succ hm hx i
  · intro hx
    have hm : IsMonoidOn (fun a : XFloat => a ≤ finite M) min (floatMinUnit M) :=
      ⟨le_rfl, fun a b ha _ => le_trans (min_le_left a b) ha, fun a b c _ _ _ => min_assoc a b c,
        fun a ha => min_eq_right ha, fun a ha => min_eq_left ha⟩
    obtain ⟨r, h1, h2⟩ := pscan_spec (P := P) hm hx
    refine ⟨r, h1, fun i hi => ?_⟩
    rw [h2 _ hi, seg_zero]
    exact exclusivePrefix_succ hm hx i

example : (∀ i : ℕ, finite (-10) ≤ (if i = 1 then posInf else finite (i : ℚ))) := by
  intro i
  split
  · exact WithBot.coe_le_coe.2 le_top
  · refine WithBot.coe_le_coe.2 (WithTop.coe_le_coe.2 ?_)
    have : (0 : ℚ) ≤ i := Nat.cast_nonneg i
    linarith

/-- C06 is violated by the code: on three devices that all hold `-inf`, `pscan(x, jnp.maximum)` returns
`finfo.min` instead of `-inf` on device 1, whatever the largest finite value `M` is. -/
theorem C06_float_extrema_violated (M : ℚ) :
    ∃ r, pscan 3 max (floatMaxUnit M) (fun _ => negInf) = .ok r ∧
      r 1 = finite (-M) ∧ inclusivePrefix max (fun _ => negInf) 0 = negInf ∧
      r 1 ≠ inclusivePrefix max (fun _ => negInf) 0 := by
  have hpos : scanSchedule 3 (fun _ => 3) (fun _ => 0) =
      [scanStage (fun _ => 3) (fun _ => 0),
       scanStage (nextN (fun _ => 3) (fun _ => 0)) (nextBase (fun _ => 3) (fun _ => 0))] := by
    rw [scanSchedule_pos (by decide), scanSchedule_pos (by decide), scanSchedule_neg (by decide)]
  have hin := fanIn_eq (op := max) (GroupInv.init 3)
    { red := fun _ => negInf, scan := fun _ => floatMaxUnit M, y := fun _ => negInf }
  have hout := fanOut_tail (P := 3) (fun (a b : XFloat) => max b a)
  rw [hpos] at hin hout
  have hval : fanOutPure (fun (a b : XFloat) => max b a)
      [scanStage (nextN (fun _ => 3) (fun _ => 0)) (nextBase (fun _ => 3) (fun _ => 0))]
      (fanInPure max [scanStage (fun _ => 3) (fun _ => 0),
        scanStage (nextN (fun _ => 3) (fun _ => 0)) (nextBase (fun _ => 3) (fun _ => 0))]
        { red := fun _ => negInf, scan := fun _ => floatMaxUnit M, y := fun _ => negInf }).scan 1
      = finite (-M) := by
    simp only [fanOutPure, fanInPure, fanInStepPure]
    simp [scanStage, nextN, nextBase, baseHi, nLo, floatMaxUnit, negInf]
  refine ⟨_, ?_, hval, rfl, ?_⟩
  · unfold pscan fanInAll
    simp only [hpos, hin, bind, Except.bind, Bool.false_eq_true, if_false]
    exact hout _
  · rw [hval]
    exact WithBot.coe_ne_bot

end Verif.Comm
