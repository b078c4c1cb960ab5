import Verif.Model.Apr

/-!
# `starks/ali.py` (and `ReedSolomonCode` of `starks/reedsolomon.py`): the algebraic linking prover

A name that may be undefined is an `Option`: reading `none` raises.
-/

namespace Verif.Ali

open Apr Poly

variable {K F : Type} [Field K] [Field F] [DecidableEq F]

/-- reedsolomon.py:79-83 `ReedSolomonCode(field, S, rho)`. -/
structure RS (K : Type) [Field K] where
  S : Aff (CPoly K)
  rho : ℚ

/-- reedsolomon.py:85-87 `draw_random_sample` raises `NotImplementedError`. -/
def drawRandomSample (_ : RS K) : Py (List F) := .error .exception

/-- An `ALIProver` object; `rs_f` is the attribute of that name, if it was set. -/
structure Prover (K F : Type) [Field K] [Field F] where
  apr : APR K F
  rs_f : Option (RS K)
  rs_g : RS K

/-- ali.py:14-19 `ALIProver(apr)`: the assignment of `rs_f` is commented out. -/
def mkProver (A : APR K F) : Prover K F := { apr := A, rs_f := none, rs_g := { S := A.Lcmp, rho := A.rhoCmp } }

/-- ali.py:21-26 `generate_proof`; `witness` is `apr.generate_witness()`. -/
def generateProof (P : Prover K F) (witness : Py (List (List F))) : Py (List (List F) × List F × List F) := do
  let rs_f ← match P.rs_f with
    | none => .error .attributeError
    | some c => .ok c
  let f_mask ← drawRandomSample rs_f
  let g_mask ← drawRandomSample P.rs_g
  let w ← witness
  .ok (w, f_mask, g_mask)

/-- ali.py:35-36, the loop: `r` is what that name refers to, if anything; `phi_R` starts as the int 0, which `n`-variate addition
takes as the constant. -/
def sumLoop (r : Option (List F)) (n : Nat) : List (Mv.Dict F) → Nat → Mv.Dict F → Py (Mv.Dict F)
  | [], _, acc => .ok acc
  | phi :: Phi, i, acc => do
    let r' ← match r with
      | none => .error .nameError
      | some r => .ok r
    let c ← pyIdx r' i
    sumLoop r n Phi (i + 1) (Mv.add acc (Mv.mul (Mv.ofElt n c) phi))

/-- ali.py:28-37 `generate_random_constraint(rphi)`: the parameter is called `rphi`, the loop reads the module global `r`, which
ali.py never sets. -/
def generateRandomConstraint (r : Option (List F)) (P : Prover K F) (n : Nat) (_rphi : List F) : Py (Mv.Dict F) :=
  sumLoop r n P.apr.Phi 0 (Mv.ofElt n 0)

end Verif.Ali
