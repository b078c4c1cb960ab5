import Verif.Model.Ali
import Verif.Props.Apr
/-!
# C101, C102: the algebraic linking prover
-/

namespace Verif.Props
open Poly FF Spec Apr Ali
open scoped Polynomial

section
variable {K F : Type} [Field K] [Field F] [DecidableEq F]

omit [DecidableEq F] in
/-- **C101** fails for every APR object: `generate_proof` raises `AttributeError`. -/
theorem C101_proof_refuted (A : APR K F) (witness : Py (List (List F))) :
    generateProof (mkProver A) witness = .error .attributeError := rfl

theorem sumLoop_eq (r : List F) (n : Nat) : ∀ (Phi : List (Mv.Dict F)) (i : Nat) (acc : Mv.Dict F), Mv.WF n acc →
    (∀ phi ∈ Phi, Mv.WF n phi) → i + Phi.length ≤ r.length →
    ∃ q, sumLoop (some r) n Phi i acc = .ok q ∧ Mv.WF n q ∧
      Mv.toMv n q = Mv.toMv n acc + ∑ j : Fin Phi.length, MvPolynomial.C (r.getD (i + j) 0) * Mv.toMv n Phi[j] := by
  intro Phi
  induction Phi with
  | nil => intro i acc h _ _; exact ⟨acc, rfl, h, by simp⟩
  | cons phi Phi ih =>
    intro i acc h hP hl
    have hphi := hP phi (by simp)
    obtain ⟨m1, m2⟩ := Mv.mul_spec (Mv.wf_ofElt n (r.getD i 0)).good hphi.good
    obtain ⟨q, q1, q2, q3⟩ := ih (i + 1) (Mv.add acc (Mv.mul (Mv.ofElt n (r.getD i 0)) phi)) (Mv.wf_add h.good m1.good)
      (fun x hx => hP x (by simp [hx])) (by simp at hl; omega)
    have hi : i < r.length := by simp at hl; omega
    refine ⟨q, ?_, q2, ?_⟩
    · rw [← q1, sumLoop]
      have : pyIdx r i = .ok (r.getD i 0) := by simp [pyIdx, hi]
      simp only [this, bind, Except.bind]
    · rw [q3, Mv.toMv_add h.good m1.good, m2, Mv.toMv_ofElt]
      change _ = _ + ∑ j : Fin (Phi.length + 1), MvPolynomial.C (r.getD (i + j) 0) * Mv.toMv n ((phi :: Phi).get j)
      rw [Fin.sum_univ_succ]
      simp [add_assoc, add_comm 1]

/-- **C102** fails for every APR object with a constraint, so for every APR the constructor returns: `generate_random_constraint`
raises `NameError`. -/
theorem C102_constraint_refuted (A : APR K F) (hA : A.Phi ≠ []) (n : Nat) (rphi : List F) :
    generateRandomConstraint none (mkProver A) n rphi = .error .nameError := by
  simp only [generateRandomConstraint, mkProver]
  cases h : A.Phi with
  | nil => exact absurd h hA
  | cons a l => rfl

/-- **C102**, in a process that has set the module's name `r` to a list of at least as many elements as there are constraints:
the function returns `∑ r_i phi_i`, whatever its argument.  MISSING: the module as it is (`C102_constraint_refuted`). -/
theorem C102_constraint_partial (A : APR K F) (n : Nat) (hP : ∀ phi ∈ A.Phi, Mv.WF n phi) (r rphi : List F)
    (hr : A.Phi.length ≤ r.length) :
    ∃ q, generateRandomConstraint (some r) (mkProver A) n rphi = .ok q ∧ Mv.WF n q ∧
      Mv.toMv n q = ∑ j : Fin A.Phi.length, MvPolynomial.C (r.getD j 0) * Mv.toMv n A.Phi[j] := by
  obtain ⟨q, q1, q2, q3⟩ := sumLoop_eq r n A.Phi 0 (Mv.ofElt n 0) (Mv.wf_ofElt n 0) hP (by simpa using hr)
  exact ⟨q, q1, q2, by rw [q3, Mv.toMv_ofElt]; simp⟩

end

section
variable {p : Nat} [hp : Fact p.Prime] {f : List (Zp p)} [hf : IsModulus f]
variable (factorint : Nat → List Nat) (draws : Nat → List (Zp p)) (inner fuel : Nat)
variable (division : Mv.Dict (Fq f) → List (Fq f) → Py (Mv.Dict (Fq f))) (parse : List (Fq f) → Py (Mv.Dict (Fq f)))
variable {n width : Nat} {inp : List (Fq f)} {steps : Int} {polys : List (Mv.Dict (Fq f))} (hw : ∀ g ∈ polys, Mv.WF n g)
  {air : Air.AIR (Fq f)} (hair : Air.mkAIR n width inp steps polys = .ok air) (hdr : ∀ i, (draws i).length = width)

include hw hair hdr in
/-- **C101**, **C102** fail on every APR built from an AIR: neither method returns. -/
theorem C102_every_apr_refuted (hwidth : 0 < width) (m k : Nat) (A : APR (Zp p) (Fq f))
    (hA : apr factorint draws inner fuel division parse m air k = .ok A) (rphi : List (Fq f)) (N : Nat) :
    generateProof (mkProver A) (.ok A.w) = .error .attributeError ∧
    generateRandomConstraint none (mkProver A) N rphi = .error .nameError := by
  refine ⟨rfl, C102_constraint_refuted A ?_ N rphi⟩
  have := ((C89_constructor factorint draws inner fuel division parse hw hair hdr m k).2 A hA).2.2.2.2.1
  intro h
  simp [h] at this
  omega

include hw hair hdr in
/-- **C101** (the code the prover sets up).  What the constructor does build is right: the code of `rs_g` lives on a space of
`1 + k + 5 + t + d` generators over the field of size `p^m`, and its rate times the size of that space is the number
`1 + 2^(k + t + d)` of coefficients of the composition polynomial.  MISSING: the proof itself (`C101_proof_refuted`). -/
theorem C101_code_partial {m k : Nat} {A : APR (Zp p) (Fq f)}
    (hA : apr factorint draws inner fuel division parse m air k = .ok A) :
    (mkProver A).rs_g.S.basis.length = 1 + k + 5 + A.t + A.d ∧
    (mkProver A).rs_g.rho * (p ^ m) ^ (mkProver A).rs_g.S.basis.length = 1 + 2 ^ (k + A.t + A.d) ∧
    (mkProver A).rs_f = none := by
  obtain ⟨z, -, hF⟩ := apr_facts factorint draws inner fuel division parse hw hair hdr hA
  refine ⟨?_, ?_, rfl⟩
  · simp [mkProver, hF.Lcmp_eq, hF.t_eq]
  · have h0 : ((p : ℚ) ^ m) ^ A.Lcmp.basis.length ≠ 0 := pow_ne_zero _ (pow_ne_zero _ (by exact_mod_cast hp.out.ne_zero))
    simp only [mkProver, hF.rhoCmp_eq, hF.t_eq, Apr.rhoCmp, ReedSolomon.affineLen]
    push_cast
    exact div_mul_cancel₀ _ h0
end

/-- The Fibonacci program over GF(8). -/
example (k : Nat) : ∃ A : APR (Zp 2) (Fq gf8), (mkProver A).rs_g.S.basis.length = 1 + k + 5 + A.t + A.d ∧
    (mkProver A).rs_g.rho * (2 ^ 3) ^ (mkProver A).rs_g.S.basis.length = 1 + 2 ^ (k + A.t + A.d) := by
  obtain ⟨air, A, h1, h2⟩ := fib_apr k
  obtain ⟨c1, c2, -⟩ := C101_code_partial _ _ _ _ _ _ (wf_fibR _) h1 (fun _ => rfl) h2
  exact ⟨A, c1, by exact_mod_cast c2⟩

/-- The Fibonacci program over GF(8) has an APR on which both methods raise. This meets the hypotheses of `C102_constraint_refuted`, `C102_every_apr_refuted`. -/
example (k : Nat) (rphi : List (Fq gf8)) : ∃ A : APR (Zp 2) (Fq gf8), A.Phi.length = 4 ∧
    generateProof (mkProver A) (.ok A.w) = .error .attributeError ∧
    generateRandomConstraint none (mkProver A) 7 rphi = .error .nameError := by
  obtain ⟨air, A, h1, h2⟩ := fib_apr k
  exact ⟨A, ((C89_constructor _ _ _ _ _ _ (wf_fibR _) h1 (fun _ => rfl) 3 k).2 A h2).2.2.2.2.1,
    C102_every_apr_refuted _ _ _ _ _ _ (wf_fibR _) h1 (fun _ => rfl) (by norm_num) 3 k A h2 rphi 7⟩

/-- `C102_constraint_partial` on an object whose constraints are the two transition polynomials of that program. -/
example (k : Nat) (rphi : List (Fq gf8)) : ∃ A : APR (Zp 2) (Fq gf8), ∃ q, A.Phi = fibR (Fq gf8) ∧
    generateRandomConstraint (some [1, 1]) (mkProver A) 2 rphi = .ok q ∧
    Mv.toMv 2 q = ∑ j : Fin A.Phi.length, MvPolynomial.C (([1, 1] : List (Fq gf8)).getD j 0) * Mv.toMv 2 A.Phi[j] := by
  obtain ⟨air, A, h1, h2⟩ := fib_apr k
  obtain ⟨q, q1, -, q3⟩ := C102_constraint_partial { A with Phi := fibR (Fq gf8) } 2 (wf_fibR _) [1, 1] rphi le_rfl
  exact ⟨{ A with Phi := fibR (Fq gf8) }, q, rfl, q1, q3⟩

end Verif.Props
