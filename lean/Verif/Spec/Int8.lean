import Verif.Model.Int8
import Verif.Spec.Kernel
/-! # Specification: an `int8` array that holds given integers -/
namespace Verif.Spec
open Model

/-- The axes are the same and every entry of the `int8` array, read as a signed number, is the exact integer. -/
structure Reads8 (op8 : Operator (BitVec 8)) (op : Operator Int) : Prop where
  axes : op8.axes = op.axes
  shape : op8.kernel.shape = op.kernel.shape
  entry : ∀ idx, Inside idx op.kernel.shape → (op8.kernel.get idx).toInt = op.kernel.get idx

/-- Both computations raise, or both return and the `int8` result holds the exact one. -/
def Reads8Res : Option (Operator (BitVec 8)) → Option (Operator Int) → Prop
  | some a, some b => Reads8 a b
  | none, none => True
  | _, _ => False

end Verif.Spec
