import Verif.Model.MixedElements
import Verif.Spec.Rationals
/-!
# Specification: elements of `Z/p` in either representation
-/

namespace Verif.Mixed

/-- `e` is an element with modulus `p`, as the constructors build it from ints, and stands for the residue `z`. -/
def Denotes (p : Nat) [Fact p.Prime] (e : Elem) (z : ZMod p) : Prop := match e with
  | .mod q n => q = p ∧ 0 ≤ n ∧ n < p ∧ (n : ZMod p) = z
  | .rat q x => q = p ∧ Rat.Wf p x ∧ Rat.val p x = z

/-- `e` is an instance of `RationalsModP`. -/
def Elem.isRat : Elem → Bool
  | .mod _ _ => false
  | .rat _ _ => true

/-- The call returns an element of the class of `e`, with modulus `p`, standing for `z`. -/
def Yields (p : Nat) [Fact p.Prime] (e : Elem) (r : Py Elem) (z : ZMod p) : Prop :=
  ∃ e', r = .ok e' ∧ e'.isRat = e.isRat ∧ Denotes p e' z

/-- The right operand `v` of an operator whose left operand is `e` stands for the residue `z`: an int stands for its residue, a
byte string for that of the big-endian integer, or of the quotient of two integers if `e` is a rational, an element for its
residue. A rational is not an operand for an integer modulo `p`. -/
def Stands (p : Nat) [Fact p.Prime] (e : Elem) (v : Val) (z : ZMod p) : Prop := match v with
  | .plain (.int k) => z = k
  | .plain (.bytes b) => if e.isRat then ((fromBytes (b.drop 32) : Nat) : ZMod p) ≠ 0 ∧
      z = ((fromBytes (b.take 32) : Nat) : ZMod p) / ((fromBytes (b.drop 32) : Nat) : ZMod p) else z = (fromBytes b : Nat)
  | .plain .none => False
  | .elem e' => Denotes p e' z ∧ (e'.isRat → e.isRat)

/-- A byte string that encodes an integer of at least `p`, beside an integer modulo `p`. -/
def Overlong (p : Nat) (e : Elem) (v : Val) : Prop := e.isRat = false ∧ ∃ b, v = .plain (.bytes b) ∧ p ≤ fromBytes b

end Verif.Mixed
