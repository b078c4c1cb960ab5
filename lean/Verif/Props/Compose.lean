import Verif.Props.Apr
/-!
# C110: substituting multivariate polynomials

`f(x)` for a polynomial in one variable and `P(vals)` for a polynomial in `m` variables, at multivariate polynomials in `n`
variables: the result denotes the polynomial obtained by substitution.
-/

namespace Verif.Props
open Poly Spec Apr Mv

section
variable {F : Type} [Field F] [DecidableEq F]

theorem callMvLoop_spec {n : Nat} {x : Dict F} (hx : WF n x) : ∀ (f : List F) (y : Dict F) (P : Option (Dict F)) (e : Nat), WF n y →
    (∀ Q, P = some Q → WF n Q ∧ toMv n Q = toMv n x ^ e) → (P = none → e = 0) →
    WF n (callMvLoop n x f y P) ∧
    toMv n (callMvLoop n x f y P) = toMv n y + toMv n x ^ e * Polynomial.aeval (toMv n x) (toPoly f) := by
  intro f
  induction f with
  | nil => intro y P e hy _ _; exact ⟨by cases P <;> exact hy, by cases P <;> simp [callMvLoop, toPoly]⟩
  | cons a f ih =>
    intro y P e hy hP h0
    have hc := wf_ofElt n a
    have hcons : toPoly (a :: f) = Polynomial.C a + Polynomial.X * toPoly f := toPoly_cons a f
    cases P with
    | none =>
      obtain rfl := h0 rfl
      obtain ⟨m1, m2⟩ := mul_spec hx.good (wf_ofElt n (1 : F)).good
      obtain ⟨w1, w2⟩ := ih (add y (ofElt n a)) (some (mul x (ofElt n 1))) 1 (wf_add hy.good hc.good)
        (by rintro Q ⟨⟩; exact ⟨m1, by rw [m2, toMv_ofElt]; simp⟩) (by simp)
      refine ⟨w1, ?_⟩
      rw [callMvLoop, w2, toMv_add hy.good hc.good, toMv_ofElt, hcons]
      simp [MvPolynomial.algebraMap_eq, add_assoc]
    | some Q =>
      obtain ⟨q1, q2⟩ := hP Q rfl
      obtain ⟨m1, m2⟩ := mul_spec q1.good hc.good
      obtain ⟨n1, n2⟩ := mul_spec q1.good hx.good
      obtain ⟨w1, w2⟩ := ih (add y (mul Q (ofElt n a))) (some (mul Q x)) (e + 1) (wf_add hy.good m1.good)
        (by rintro R ⟨⟩; exact ⟨n1, by rw [n2, q2, pow_succ]⟩) (by simp)
      refine ⟨w1, ?_⟩
      rw [callMvLoop, w2, toMv_add hy.good m1.good, m2, q2, toMv_ofElt, hcons]
      simp only [map_add, map_mul, Polynomial.aeval_C, Polynomial.aeval_X, MvPolynomial.algebraMap_eq]
      ring

theorem evalMono_spec {n : Nat} {vals : List (Dict F)} (hv : ∀ v ∈ vals, WF n v) : ∀ (t : Tup) (i : Nat) (P : Option (Dict F)),
    i + t.length ≤ vals.length → (∀ Q, P = some Q → WF n Q) →
    ∃ r, evalMono n vals t i P = .ok r ∧ (∀ Q, r = some Q → WF n Q) ∧
      (r.map (toMv n)).getD 1 = (P.map (toMv n)).getD 1 * ∏ j ∈ Finset.range t.length, toMv n (vals.getD (i + j) []) ^ t.getD j 0
  | [], i, P, _, hP => ⟨P, rfl, hP, by simp⟩
  | e :: t, i, P, h, hP => by
    simp only [List.length_cons] at h
    have hi : i < vals.length := by omega
    have e1 : pyIdx vals i = .ok (vals.getD i []) := by simp [pyIdx, List.getElem?_eq_getElem hi]
    have hvi : WF n (vals.getD i []) := by
      rw [List.getD_eq_getElem?_getD, List.getElem?_eq_getElem hi]; exact hv _ (List.getElem_mem hi)
    obtain ⟨ve, p1, p2, p3⟩ := pow_spec hvi e
    have hshift : ∏ j ∈ Finset.range (e :: t).length, toMv n (vals.getD (i + j) []) ^ (e :: t).getD j 0 =
        toMv n (vals.getD i []) ^ e * ∏ j ∈ Finset.range t.length, toMv n (vals.getD (i + 1 + j) []) ^ t.getD j 0 := by
      rw [List.length_cons, Finset.prod_range_succ', mul_comm]
      refine congrArg₂ _ (by simp) (Finset.prod_congr rfl fun j _ => ?_)
      rw [List.getD_cons_succ, show i + (j + 1) = i + 1 + j by omega]
    rw [evalMono]
    simp only [e1, p1, bind, Except.bind]
    cases P with
    | none =>
      obtain ⟨m1, m2⟩ := mul_spec p2.good (wf_ofElt n (1 : F)).good
      obtain ⟨r, r1, r2, r3⟩ := evalMono_spec hv t (i + 1) (some (mul ve (ofElt n 1))) (by omega) (by rintro Q ⟨⟩; exact m1)
      refine ⟨r, r1, r2, ?_⟩
      rw [r3, hshift]
      simp [m2, p3, toMv_ofElt]
    | some Q =>
      obtain ⟨m1, m2⟩ := mul_spec (hP Q rfl).good p2.good
      obtain ⟨r, r1, r2, r3⟩ := evalMono_spec hv t (i + 1) (some (mul Q ve)) (by omega) (by rintro Q ⟨⟩; exact m1)
      refine ⟨r, r1, r2, ?_⟩
      rw [r3, hshift]
      simp [m2, p3, mul_assoc]

theorem evalLoop_spec {m n : Nat} {vals : List (Dict F)} (hv : ∀ v ∈ vals, WF n v) (hl : vals.length = m) : ∀ (d y : Dict F), WF n y →
    (∀ e ∈ d, e.1.length = m) →
    ∃ r, evalLoop n vals d y = .ok r ∧ WF n r ∧
      toMv n r = toMv n y + MvPolynomial.aeval (fun i : Fin m => toMv n (vals.getD i [])) (toMv m d)
  | [], y, hy, _ => ⟨y, rfl, hy, by simp⟩
  | (t, c) :: d, y, hy, h => by
    have ht : t.length = m := h (t, c) (by simp)
    obtain ⟨r, r1, r2, r3⟩ := evalMono_spec hv t 0 none (by omega) (by simp)
    have hc := wf_ofElt n c
    have hprod : (tupF m t).prod (fun i k => toMv n (vals.getD (i : Nat) []) ^ k) =
        ∏ j ∈ Finset.range t.length, toMv n (vals.getD (0 + j) []) ^ t.getD j 0 := by
      rw [Finsupp.prod_fintype _ _ (fun i => pow_zero _), ht, Finset.prod_range]
      simp
    rw [evalLoop]
    simp only [r1, bind, Except.bind]
    cases r with
    | none =>
      obtain ⟨q, q1, q2, q3⟩ := evalLoop_spec hv hl d (add y (ofElt n c)) (wf_add hy.good hc.good) (fun e he => h e (by simp [he]))
      refine ⟨q, q1, q2, ?_⟩
      rw [q3, toMv_add hy.good hc.good, toMv_ofElt, toMv_cons, map_add, MvPolynomial.aeval_monomial, hprod]
      simp only [Option.map_none, Option.getD_none, one_mul] at r3
      rw [← r3, MvPolynomial.algebraMap_eq]; ring
    | some Q =>
      obtain ⟨m1, m2⟩ := mul_spec (r2 Q rfl).good hc.good
      obtain ⟨q, q1, q2, q3⟩ := evalLoop_spec hv hl d (add y (mul Q (ofElt n c))) (wf_add hy.good m1.good) (fun e he => h e (by simp [he]))
      refine ⟨q, q1, q2, ?_⟩
      rw [q3, toMv_add hy.good m1.good, m2, toMv_ofElt, toMv_cons, map_add, MvPolynomial.aeval_monomial, hprod]
      simp only [Option.map_none, Option.getD_none, one_mul, Option.map_some, Option.getD_some] at r3
      rw [← r3, MvPolynomial.algebraMap_eq]; ring

/-- **C110**: `f(x)` is the polynomial `f` with `x` in place of the variable. -/
theorem C110_call (n : Nat) (f : List F) (x : Dict F) (hx : WF n x) :
    WF n (callMv n f x) ∧ toMv n (callMv n f x) = Polynomial.aeval (toMv n x) (toPoly f) := by
  obtain ⟨h1, h2⟩ := callMvLoop_spec hx f [] none 0 (wf_nil n) (by simp) (fun _ => rfl)
  exact ⟨h1, by rw [callMv, h2]; simp⟩

/-- **C110**: `P(vals)`, at as many polynomials as `P` has variables, is `P` with them in place of its variables. -/
theorem C110_call_multi (m n : Nat) (P : Dict F) (hP : WF m P) (vals : List (Dict F)) (hl : vals.length = m) (hv : ∀ v ∈ vals, WF n v) :
    ∃ r, Apr.evalAt m n P vals = .ok r ∧ WF n r ∧
      toMv n r = MvPolynomial.aeval (fun i : Fin m => toMv n (vals.getD i [])) (toMv m P) := by
  obtain ⟨r, r1, r2, r3⟩ := evalLoop_spec hv hl P [] (wf_nil n) hP.len
  exact ⟨r, by simpa [Apr.evalAt, hl, pyAssert, bind, Except.bind] using r1, r2, by simpa using r3⟩

/-- **C110**: with any other number of arguments the call raises `AssertionError`. -/
theorem C110_arguments (m n : Nat) (P : Dict F) (vals : List (Dict F)) (hl : vals.length ≠ m) :
    Apr.evalAt m n P vals = .error .assertion := by
  simp [Apr.evalAt, hl, pyAssert, bind, Except.bind]
end

/-- `1 + 2 x + x^2` at `x = X_1 + X_2` over Z/5. This meets the hypotheses of `C110_call`. -/
example : callMv 2 ([1, 2, 1] : List (Zp 5)) (ofDict [([1, 0], 1), ([0, 1], 1)]) =
    [([0, 0], 1), ([0, 1], 2), ([0, 2], 1), ([1, 0], 2), ([1, 1], 2), ([2, 0], 1)] := by decide +kernel

/-- `Y_1 Y_2^2 + 3` at `(X_1 + X_2, X_1)` over Z/5. This meets the hypotheses of `C110_call_multi`. -/
example : Apr.evalAt 2 2 (ofDict [([1, 2], 1), ([0, 0], 3)] : Dict (Zp 5)) [ofDict [([1, 0], 1), ([0, 1], 1)], ofDict [([1, 0], 1)]] =
    .ok [([0, 0], 3), ([2, 1], 1), ([3, 0], 1)] := by decide +kernel

end Verif.Props
