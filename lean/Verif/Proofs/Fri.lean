import Verif.Model.Fri
import Verif.Props.ReedSolomon
/-!
# Facts about the FRI model
-/

namespace Verif.Fri
open PolyUtils ReedSolomon Poly
open scoped Polynomial
open Polynomial (C X)

theorem hexLoop_spec : ∀ (fuel num : Nat) (acc : List Nat), num < fuel → hexLoop fuel num acc = .ok ((Nat.digits 2 num).reverse ++ acc)
  | 0, _, _, h => by omega
  | fuel + 1, num, acc, h => by
    unfold hexLoop
    split_ifs with h0
    · rw [hexLoop_spec fuel (num / 2) _ (by omega), Nat.digits_def' (by norm_num) h0]
      simp
    · have : num = 0 := by omega
      subst this
      simp

theorem hexToBin_eq (num : Nat) : hexToBin num = .ok (Nat.digits 2 num).reverse := by
  rw [hexToBin, hexLoop_spec _ _ _ (Nat.lt_succ_self num), List.append_nil]

section
variable {F : Type _} [Field F] [DecidableEq F]

/-- Interpolating at points that all occur twice or more gives a polynomial that is 0 at each of them. -/
theorem lagrangeInterp_twice (xs ys : List F) (hl : ys.length = xs.length) (h2 : ∀ x ∈ xs, 2 ≤ xs.count x) :
    ∃ r, lagrangeInterp xs ys = .ok r ∧ Canon r ∧ ∀ x ∈ xs, (toPoly r).eval x = 0 := by
  obtain ⟨r, h1, hc, -, hsum⟩ := lagrangeInterp_sum xs ys hl
  refine ⟨r, h1, hc, fun x hx => ?_⟩
  rw [hsum, Polynomial.eval_finsetSum]
  refine Finset.sum_eq_zero fun i hi => ?_
  have hi' : i < xs.length := Finset.mem_range.1 hi
  have hmem : x ∈ xs.eraseIdx i := by
    have h3 := h2 x hx
    have h4 := (List.getElem_cons_eraseIdx_perm hi').count_eq x
    rw [List.count_cons] at h4
    rw [← List.count_pos_iff]
    split_ifs at h4 <;> omega
  have : (numer xs i).eval x = 0 := by
    rw [numer, Polynomial.eval_list_prod, List.prod_eq_zero_iff, List.map_map]
    exact List.mem_map.2 ⟨x, hmem, by simp⟩
  rw [Polynomial.eval_mul, this, mul_zero]

end

section
variable {p : Nat} [hp : Fact p.Prime] {V F : Type _} [AddCommGroup V] [Module (Zp p) V] [Field F] [DecidableEq F]

theorem indep_take {basis : List V} (h : LinearIndependent (Zp p) basis.get) (k : Nat) :
    LinearIndependent (Zp p) (basis.take k).get := by
  have : (basis.take k).get = basis.get ∘ fun i => ⟨i.1, by have := i.2; simp at this; omega⟩ := by
    funext i; simp
  rw [this]
  exact h.comp _ fun a b hab => by simpa [Fin.ext_iff] using hab

/-- The vanishing polynomial of a linear space takes the same value along each coset. -/
theorem vanish_translate {cast : V → F} (hadd : ∀ a b, cast (a + b) = cast a + cast b) {basis : List V}
    (hind : LinearIndependent (Zp p) basis.get) {q : List F}
    (hq : affineVanishing (zpIter p (Zp.ofInt (p := p))) cast basis 0 = .ok q) (v b : V)
    (hb : b ∈ Submodule.span (Zp p) {b | b ∈ basis}) : call q (cast (v + b)) = call q (cast v) := by
  obtain ⟨q', items, h1, h2, -, -, -, h6, -⟩ := Props.C23_affine_vanishing_partial p cast basis 0
  obtain ⟨items', g1, g2, -, g4⟩ := Props.C22_affine_space p basis (0 : V)
  rw [hq] at h1
  cases h1
  rw [h2] at g1
  cases g1
  rw [call_eq_eval, call_eq_eval, h6, Polynomial.eval_list_prod, Polynomial.eval_list_prod]
  have hnd := g4.2 hind
  have hperm : (items.map fun w => w + b).Perm items := by
    rw [List.perm_ext_iff_of_nodup (hnd.map (add_left_injective b)) hnd]
    intro w
    rw [g2, sub_zero, List.mem_map]
    constructor
    · rintro ⟨u, hu, rfl⟩
      rw [g2, sub_zero] at hu
      exact Submodule.add_mem _ hu hb
    · intro hw
      exact ⟨w - b, by rw [g2, sub_zero]; exact Submodule.sub_mem _ hw hb, by abel⟩
  rw [List.map_map, List.map_map]
  rw [← (hperm.map _).prod_eq, List.map_map]
  congr 1
  refine List.map_congr_left fun w _ => ?_
  simp only [Function.comp, Polynomial.eval_sub, Polynomial.eval_X, Polynomial.eval_C, hadd]
  ring

end
end Verif.Fri
