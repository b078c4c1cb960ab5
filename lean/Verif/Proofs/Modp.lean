import Verif.Model.Modp
import Verif.Proofs.Euclid
import Mathlib.Data.ZMod.Basic
import Mathlib.Data.Int.GCD
import Mathlib.RingTheory.Int.Basic
import Mathlib.RingTheory.PrincipalIdealDomain
import Mathlib.Algebra.Field.ZMod
/-!
# Z/p: the code's operations, bundled as a Mathlib field

`Zp p` is the type of values an `IntegersModP(p)` instance built from ints can have; its ring and field operations are
the model's operations (`Modp.add`, …), so theorems about an arbitrary field apply to the code's field.
-/

namespace Verif

theorem fmod_nat (n : Int) (p : Nat) : n.fmod p = n % p := Int.fmod_eq_emod_of_nonneg n (by omega)

namespace Modp

theorem mk_range (p : Nat) (hp : 0 < p) (n : Int) : 0 ≤ mk p n ∧ mk p n < p := by
  unfold mk
  exact ⟨Int.fmod_nonneg_of_pos n (by omega), Int.fmod_lt_of_pos n (by omega)⟩

theorem mk_cast (p : Nat) (n : Int) : ((mk p n : Int) : ZMod p) = n := by
  unfold mk; rw [fmod_nat]; simp

theorem mk_of_range (p : Nat) (n : Int) (h0 : 0 ≤ n) (h1 : n < p) : mk p n = n := by
  unfold mk; rw [fmod_nat]; exact Int.emod_eq_of_lt h0 h1

/-- `inverse` never diverges, succeeds exactly on units, and then returns the inverse. -/
theorem inverse_spec (p : Nat) (a : Int) (ha : 0 ≤ a) :
    (Int.gcd a p = 1 ∧ ∃ x, inverse p a = .ok (mk p x) ∧ ((a * x : Int) : ZMod p) = 1) ∨
    (Int.gcd a p ≠ 1 ∧ inverse p a = .error .attributeError) := by
  obtain ⟨x, y, g, h, -, -, -, hbez, hd⟩ := xgcd_spec intLaw a p trivial trivial
  have hg : g = Int.gcd a p := by
    have h0 := xgcd_int_nonneg a p x y g ha (by omega) h
    apply Int.dvd_antisymm h0 (by omega)
    · exact Int.dvd_coe_gcd ((hd g).mp dvd_rfl).1 ((hd g).mp dvd_rfl).2
    · exact (hd _).mpr ⟨Int.gcd_dvd_left .., Int.gcd_dvd_right ..⟩
  by_cases h1 : g = 1
  · left
    refine ⟨by omega, x, by simp [inverse, h, h1, bind, Except.bind], ?_⟩
    have : ((a * x + p * y : Int) : ZMod p) = ((1 : Int) : ZMod p) := by rw [hbez, h1]
    simpa using this
  · right
    exact ⟨by omega, by simp [inverse, h, h1, bind, Except.bind]⟩

end Modp

/-- The values of `IntegersModP(p)` instances built from ints (modp.py:36): canonical representatives. -/
def Zp (p : Nat) : Type := {n : Int // 0 ≤ n ∧ n < p}

namespace Zp
variable {p : Nat}

instance : DecidableEq (Zp p) := inferInstanceAs (DecidableEq {n : Int // 0 ≤ n ∧ n < p})

/-- Interpretation in Mathlib's `ZMod p`. -/
def toZ (a : Zp p) : ZMod p := ((a.1 : Int) : ZMod p)

theorem toZ_inj : Function.Injective (toZ (p := p)) := by
  intro a b h
  unfold toZ at h
  rw [ZMod.intCast_eq_intCast_iff'] at h
  rw [Int.emod_eq_of_lt a.2.1 a.2.2, Int.emod_eq_of_lt b.2.1 b.2.2] at h
  exact Subtype.ext h

variable [hp : Fact p.Prime]

/-- modp.py:36 `IntegersModP(p)(n)` for an int `n`. -/
def ofInt (n : Int) : Zp p := ⟨Modp.mk p n, Modp.mk_range p hp.out.pos n⟩

@[simp] theorem toZ_ofInt (n : Int) : (ofInt n : Zp p).toZ = n := Modp.mk_cast p n

theorem ofInt_val (a : Zp p) : ofInt a.1 = a := toZ_inj (toZ_ofInt _)

instance : Zero (Zp p) := ⟨ofInt 0⟩
instance : One (Zp p) := ⟨ofInt 1⟩
instance : Add (Zp p) := ⟨fun a b => ⟨Modp.add p a.1 b.1, Modp.mk_range p hp.out.pos _⟩⟩
instance : Sub (Zp p) := ⟨fun a b => ⟨Modp.sub p a.1 b.1, Modp.mk_range p hp.out.pos _⟩⟩
instance : Mul (Zp p) := ⟨fun a b => ⟨Modp.mul p a.1 b.1, Modp.mk_range p hp.out.pos _⟩⟩
instance : Neg (Zp p) := ⟨fun a => ⟨Modp.neg p a.1, Modp.mk_range p hp.out.pos _⟩⟩
/-- `inverse()`, with the exception at zero mapped to zero (Mathlib's convention); every model function that divides
tests for zero first. -/
instance : Inv (Zp p) := ⟨fun a => match Modp.inverse p a.1 with
  | .ok x => ofInt x
  | .error _ => 0⟩

@[simp] theorem toZ_zero : (0 : Zp p).toZ = 0 := (toZ_ofInt 0).trans (by simp)
@[simp] theorem toZ_one : (1 : Zp p).toZ = 1 := (toZ_ofInt 1).trans (by simp)
@[simp] theorem toZ_add (a b : Zp p) : (a + b).toZ = a.toZ + b.toZ :=
  (Modp.mk_cast p _).trans (by simp [toZ])
@[simp] theorem toZ_sub (a b : Zp p) : (a - b).toZ = a.toZ - b.toZ :=
  (Modp.mk_cast p _).trans (by simp [toZ])
@[simp] theorem toZ_mul (a b : Zp p) : (a * b).toZ = a.toZ * b.toZ :=
  (Modp.mk_cast p _).trans (by simp [toZ])
@[simp] theorem toZ_neg (a : Zp p) : (-a).toZ = -a.toZ :=
  (Modp.mk_cast p _).trans (by simp [toZ])

theorem toZ_inv (a : Zp p) (h : a ≠ 0) : a.toZ * (a⁻¹).toZ = 1 := by
  rcases Modp.inverse_spec p a.1 a.2.1 with ⟨-, x, hx, h1⟩ | ⟨hg, -⟩
  · have : a⁻¹ = ofInt (Modp.mk p x) := by
      show (match Modp.inverse p a.1 with | .ok x => ofInt x | .error _ => 0) = _
      rw [hx]
    rw [this, toZ_ofInt, Modp.mk_cast]
    simpa [toZ] using h1
  · exfalso
    apply hg
    have hpos : 0 < a.1 := by
      rcases lt_or_eq_of_le a.2.1 with h' | h'
      · exact h'
      · exfalso; apply h; apply toZ_inj; rw [toZ_zero]; simp [toZ, ← h']
    have hlt := a.2.2
    rw [Int.gcd_comm]
    apply Int.isCoprime_iff_gcd_eq_one.mp
    rw [Prime.coprime_iff_not_dvd (Nat.prime_iff_prime_int.mp hp.out)]
    intro hdvd
    have := Int.le_of_dvd hpos hdvd
    omega

theorem toZ_inv_zero : ((0 : Zp p)⁻¹).toZ = 0 := by
  rcases Modp.inverse_spec p (0 : Zp p).1 (0 : Zp p).2.1 with ⟨-, x, -, h1⟩ | ⟨-, h⟩
  · exfalso
    have : ((0 : Zp p).1 : ZMod p) = 0 := toZ_zero
    rw [Int.cast_mul, this, zero_mul] at h1
    exact zero_ne_one h1
  · show (match Modp.inverse p (0 : Zp p).1 with | .ok x => ofInt x | .error _ => (0 : Zp p)).toZ = 0
    rw [h]; simp

instance : Field (Zp p) where
  add_assoc a b c := toZ_inj (by simp [add_assoc])
  zero_add a := toZ_inj (by simp)
  add_zero a := toZ_inj (by simp)
  add_comm a b := toZ_inj (by simp [add_comm])
  left_distrib a b c := toZ_inj (by simp [mul_add])
  right_distrib a b c := toZ_inj (by simp [add_mul])
  zero_mul a := toZ_inj (by simp)
  mul_zero a := toZ_inj (by simp)
  mul_assoc a b c := toZ_inj (by simp [mul_assoc])
  one_mul a := toZ_inj (by simp)
  mul_one a := toZ_inj (by simp)
  neg_add_cancel a := toZ_inj (by simp)
  sub_eq_add_neg a b := toZ_inj (by simp [sub_eq_add_neg])
  mul_comm a b := toZ_inj (by simp [mul_comm])
  nsmul := nsmulRec
  zsmul := zsmulRec
  natCast n := ofInt n
  natCast_zero := rfl
  natCast_succ n := toZ_inj (by simp)
  intCast n := ofInt n
  intCast_ofNat _ := rfl
  intCast_negSucc n := toZ_inj (by
    change (ofInt (Int.negSucc n)).toZ = (-ofInt ((n + 1 : Nat) : Int)).toZ
    simp)
  exists_pair_ne := ⟨0, 1, fun h => by simpa using congrArg toZ h⟩
  mul_inv_cancel a h := toZ_inj (by simp [toZ_inv a h])
  inv_zero := toZ_inj (by simp [toZ_inv_zero])
  nnqsmul := _
  nnqsmul_def := fun _ _ => rfl
  qsmul := _
  qsmul_def := fun _ _ => rfl

/-- The interpretation is a ring isomorphism with `ZMod p`. -/
def equivZMod : Zp p ≃+* ZMod p where
  toFun := toZ
  invFun z := ofInt (z.val : Int)
  left_inv a := toZ_inj (by have := NeZero.mk hp.out.ne_zero; simp)
  right_inv z := by have := NeZero.mk hp.out.ne_zero; simp
  map_mul' := toZ_mul
  map_add' := toZ_add

end Zp

end Verif
