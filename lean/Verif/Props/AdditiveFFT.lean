import Verif.Proofs.AdditiveFFT
import Verif.Props.BinaryField
/-!
# C58: the additive FFT

The claim is false for almost every input: the transform raises for `m ≥ 3` and is wrong for `m = 1, 2`; its "inverse" ignores
the values.  The theorems say where it is right and prove the rest wrong.
-/

namespace Verif.Props
open Poly FF AdditiveFFT

section
variable (f : List (Zp 2)) [IsModulus f]

/-- The coefficients of an element, as bits. -/
def eltBits (a : Fq f) : List Bool := a.1.map fun c => decide (c = 1)

/-- The element `Σ bᵢ xⁱ`. -/
def eltOfBits (bs : List Bool) : Fq f := Fq.mk (ctor (unbit bs)) (canon_ctor _)

/-- The polynomial with the coefficients of `a`, evaluated at `x`: the sum of `xⁱ` over the set coefficients `i`. -/
def evalAt (a x : Fq f) : Fq f := ∑ i ∈ Finset.range a.1.length, if a.1.getD i 0 = 1 then x ^ i else 0

theorem eltOfBits_zero : eltOfBits f [false] = 0 := by
  apply Fq.val_inj
  rw [eltOfBits, Fq.mk_val, toPoly_ctor, Fq.val_zero]
  simp [unbit, toPoly_cons, toPoly_nil]

theorem sumPowers_eltBits (a x : Fq f) : sumPowers x (eltBits f a) 0 (eltOfBits f [false]) = evalAt f a x := by
  rw [sumPowers_spec, eltOfBits_zero, zero_add, evalAt, eltBits, List.length_map]
  apply Finset.sum_congr rfl
  intro i hi
  rw [Finset.mem_range] at hi
  simp [hi]

/-- What `adfft(P, 1, [β])` returns, in every binary field: `P(β)` and 0. -/
theorem C58_adfft_m1 (P b : Fq f) : adfft (eltBits f) (eltOfBits f) 1 P [b] = .ok [evalAt f P b, 0] := by
  rw [adfft_one, sumPowers_eltBits, eltOfBits_zero]

theorem evalAt_zero (P : Fq f) : evalAt f P 0 = if P.1.getD 0 0 = 1 then 1 else 0 := by
  unfold evalAt
  cases h : P.1 with
  | nil => simp
  | cons c cs =>
    rw [List.length_cons, Finset.sum_range_succ']
    simp

/-- **C58**, part. For `m = 1` and a polynomial without constant term, `adfft(P, 1, [β])` is `(P(β), P(0))`, the values on the
span of `β`.  Missing: everything else, where it is false (`C58_adfft_refuted`, `C58_adfft_m1_refuted`). -/
theorem C58_adfft_partial (P b : Fq f) (h : P.1.getD 0 0 ≠ 1) :
    adfft (eltBits f) (eltOfBits f) 1 P [b] = .ok [evalAt f P b, evalAt f P 0] := by
  rw [C58_adfft_m1, evalAt_zero, if_neg h]

/-- **C58** fails for `m = 1` and every polynomial with a constant term: in no order are the returned elements the values on
the span of `β`. -/
theorem C58_adfft_m1_refuted (P b : Fq f) (h : P.1.getD 0 0 = 1) :
    ∃ r, adfft (eltBits f) (eltOfBits f) 1 P [b] = .ok r ∧ ¬ r.Perm [evalAt f P b, evalAt f P 0] := by
  refine ⟨_, C58_adfft_m1 f P b, ?_⟩
  rw [evalAt_zero, if_pos h, List.perm_cons]
  intro hp
  have := List.perm_singleton.1 hp
  simp at this

theorem evalAt_one (x : Fq f) : evalAt f 1 x = 1 := by
  have h1 : (1 : Fq f).1 = [1] := by
    show ctor [(1 : Zp 2)] = [1]
    exact ctor_of_canon (by intro a h; simp at h; subst h; exact one_ne_zero)
  rw [evalAt, h1]; simp

/-- **C58** fails for every `m ≥ 1` already on the constant polynomial 1, whose value is 1 everywhere: no call returns the
`2^m` values.  For `m ≥ 3` the call raises `TypeError` on every polynomial. -/
theorem C58_adfft_refuted (m : Nat) (hm : 1 ≤ m) (beta : List (Fq f)) (hb : beta.length = m) :
    (∀ x, evalAt f 1 x = 1) ∧
    adfft (eltBits f) (eltOfBits f) m 1 beta ≠ .ok (List.replicate (2 ^ m) 1) ∧
    (3 ≤ m → ∀ P, adfft (eltBits f) (eltOfBits f) m P beta = .error .typeError) := by
  refine ⟨evalAt_one f, ?_, ?_⟩
  · match m, hm with
    | 1, _ =>
      obtain ⟨b, rfl⟩ : ∃ b, beta = [b] := List.length_eq_one_iff.1 hb
      rw [C58_adfft_m1, evalAt_one]
      intro h
      injection h with h
      simp [List.replicate_succ] at h
    | 2, _ =>
      intro h
      have := adfft_two _ _ (eltOfBits_zero f) _ _ _ h
      simp at this
    | m + 3, _ => rw [adfft_big _ _ m _ beta hb]; intro h; cases h
  · intro h3 P
    obtain ⟨k, rfl⟩ : ∃ k, m = k + 3 := ⟨m - 3, by omega⟩
    exact adfft_big _ _ k P beta hb

/-- **C58**, what the code computes for `m = 2`: with `c i` the coefficients of `G = P(x β₁)`, `δ = (β₀/β₁)² - β₀/β₁`,
`h = c₂ + c₃`, `g₀ = c₀ + c₁ x + x h` and `g₁ = h + x c₃`, the result is `g₀(δ), 0, g₀(δ) + g₁(δ), 0`. -/
theorem C58_adfft_m2_actual (P b0 b1 : Fq f) (hb : b1 ≠ 0) :
    let x := eltOfBits f [false, true]
    let G := evalAt f P (x * b1)
    let c := fun i : Nat => (eltBits f G).getD i false
    let h := eltOfBits f [c 2] + eltOfBits f [c 3]
    let d := (b0 * b1⁻¹) ^ 2 - b0 * b1⁻¹
    let g0 := eltOfBits f [c 0, c 1] + x * h
    let g1 := h + x * eltOfBits f [c 3]
    adfft (eltBits f) (eltOfBits f) 2 P [b0, b1] = .ok [evalAt f g0 d, 0, evalAt f g0 d + evalAt f g1 d, 0] := by
  have := adfft_two_eq (eltBits f) (eltOfBits f) (eltOfBits_zero f) P b0 b1 hb
  simp only [sumPowers_eltBits] at this
  exact this

/-- **C58** fails for `m = 2` on every polynomial if the last basis element is 0: `ZeroDivisionError`. -/
theorem C58_adfft_m2_zero_refuted (P b0 : Fq f) : adfft (eltBits f) (eltOfBits f) 2 P [b0, 0] = .error .zeroDivision :=
  adfft_two_zero _ _ P b0

/-- **C58**, the inverse: `adfft_inverse(x, y, m)` does not depend on the values `y`. -/
theorem C58_adfft_inverse_ignores_values (m : Nat) (x y y' : List (Fq f)) (h : y.length = y'.length) :
    adfftInv (eltBits f) (eltOfBits f) m x y = adfftInv (eltBits f) (eltOfBits f) m x y' :=
  adfftInv_indep _ _ m x y y' h

theorem eltOfBits_one : eltOfBits f [true] = 1 := by
  apply Fq.val_inj
  rw [eltOfBits, Fq.mk_val, toPoly_ctor, Fq.val_one]
  simp [unbit, toPoly_cons, toPoly_nil]

/-- What the inverse computes instead, from the elements `β 0, …, β n` alone.  For one element it is that element.  For more it divides
by the last, maps `γ` to `δ = γ² - γ`, and recurses on `δ₀, δ₀ + δ₁, …, δ₀ + δ_(n-1)`; from the bits `bᵢ` of the result it returns
`Σ (s + bᵢ) (s² - s)ⁱ` where `s = x/βₙ`. -/
def inverseValue : Nat → (Nat → Fq f) → Py (Fq f)
  | 0, β => .ok (β 0)
  | n + 1, β =>
    if β (n + 1) = 0 then .error .zeroDivision
    else
      let s := eltOfBits f [false, true] / β (n + 1)
      let δ := fun i => (β i / β (n + 1)) ^ 2 - β i / β (n + 1)
      (inverseValue n fun i => if i = 0 then δ 0 else δ 0 + δ i).map fun g =>
        ∑ i ∈ Finset.range (2 ^ (n + 1)), (s + if g.1.getD i 0 = 1 then 1 else 0) * (s ^ 2 - s) ^ i

omit [IsModulus f] in
theorem eltBits_getD (g : Fq f) (i : Nat) : (eltBits f g).getD i false = decide (g.1.getD i 0 = 1) := by
  rw [eltBits, List.getD, List.getD, List.getElem?_map]
  cases g.1[i]? with
  | none => simp
  | some c => simp

theorem inverseValue_eq : ∀ (n : Nat) (β : Nat → Fq f), inverseValue f n β = inverseOf (eltBits f) (eltOfBits f [false, true]) n β
  | 0, _ => rfl
  | n + 1, β => by
    rw [inverseValue, inverseOf]
    by_cases h0 : β (n + 1) = 0
    · rw [if_pos h0, if_pos h0]
    · rw [if_neg h0, if_neg h0]
      simp only [div_eq_mul_inv, inverseValue_eq n, eltBits_getD, decide_eq_true_eq]
      generalize inverseOf (eltBits f) (eltOfBits f [false, true]) n _ = r
      cases r <;> rfl

/-- **C58**, what the inverse computes: for `m ≥ 2`, on enough points and values, only the points number 1, 2, 4, …, `2^(m-1)` matter. -/
theorem C58_adfft_inverse_actual (n : Nat) (x y : List (Fq f)) (hx : 2 ^ (n + 1) < x.length) (hy : 2 ^ (n + 2) ≤ y.length) :
    adfftInv (eltBits f) (eltOfBits f) (n + 2) x y = inverseValue f (n + 1) fun i => x.getD (2 ^ i) 0 := by
  rw [inverseValue_eq]
  exact adfftInv_eq _ _ (eltOfBits_zero f) (eltOfBits_one f) (n + 1) x y hx hy (by omega)

/-- **C58**, the inverse for `m = 1`: on two different points it raises `UnboundLocalError`, on equal points it returns the point. -/
theorem C58_adfft_inverse_m1_refuted (x0 x1 y0 y1 : Fq f) :
    adfftInv (eltBits f) (eltOfBits f) 1 [x0, x1] [y0, y1] = if x0 = x1 then .ok x0 else .error .unboundLocal := rfl

/-- **C58** fails for the inverse: on no points `x` does it recover two different polynomials from their values. -/
theorem C58_adfft_inverse_refuted (m : Nat) (x : List (Fq f)) (P Q : Fq f) (hne : P ≠ Q) :
    ¬ (adfftInv (eltBits f) (eltOfBits f) m x (x.map (evalAt f P)) = .ok P ∧
       adfftInv (eltBits f) (eltOfBits f) m x (x.map (evalAt f Q)) = .ok Q) := by
  rintro ⟨h1, h2⟩
  rw [C58_adfft_inverse_ignores_values f m x _ (x.map (evalAt f Q)) (by simp), h2] at h1
  injection h1 with h1
  exact hne h1.symm

end

instance modulus_two : IsModulus ([1, 1, 0, 1] : List (Zp 2)) := ⟨irr_two.1, irr_two.2⟩

/-- In GF(8): `x` has no constant term, `x + 1` has one. This meets the hypotheses of `C58_adfft_partial`, `C58_adfft_m1_refuted`, `C58_adfft_refuted`, `C58_adfft_m2_actual`, `C58_adfft_inverse_ignores_values`. -/
example : ∃ P Q b : Fq ([1, 1, 0, 1] : List (Zp 2)), P ≠ Q ∧ P.1.getD 0 0 ≠ 1 ∧ Q.1.getD 0 0 = 1 ∧
    adfft (eltBits _) (eltOfBits _) 1 P [b] = .ok [b, 0] ∧ adfft (eltBits _) (eltOfBits _) 1 Q [b] = .ok [b + 1, 0] ∧
    adfft (eltBits _) (eltOfBits _) 3 Q [b, P, 1] = .error .typeError ∧
    adfftInv (eltBits _) (eltOfBits _) 1 [0, b] [P, Q] = .error .unboundLocal ∧
    (adfftInv (eltBits _) (eltOfBits _) 2 [0, 1, b, b + 1] [P, Q, P, Q]).isOk = true :=
  ⟨eltOfBits _ [false, true], eltOfBits _ [true, true], eltOfBits _ [false, false, true], by decide +kernel, by decide +kernel,
    by decide +kernel, by decide +kernel, by decide +kernel, by decide +kernel, by decide +kernel,
    by decide +kernel⟩

/-- In GF(8), the polynomial `x` on the basis `1, 0`. This is a case of `C58_adfft_m2_zero_refuted`. -/
example : adfft (eltBits ([1, 1, 0, 1] : List (Zp 2))) (eltOfBits _) 2 (eltOfBits _ [false, true]) [1, 0] = .error .zeroDivision := by
  decide +kernel

/-- Over GF(8) with `β = 1, x`: the inverse returns 1 for any four values. -/
example (y0 y1 y2 y3 : Fq ([1, 1, 0, 1] : List (Zp 2))) :
    adfftInv (eltBits _) (eltOfBits _) 2 [0, 1, eltOfBits _ [false, true], eltOfBits _ [true, true]] [y0, y1, y2, y3] =
      .ok (eltOfBits _ [true]) := by
  rw [C58_adfft_inverse_actual _ 0 _ _ (by simp) (by simp)]
  rfl

end Verif.Props
