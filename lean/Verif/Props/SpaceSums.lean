import Verif.Props.VanishingSet
import Verif.Props.InterpLaws
import Mathlib.LinearAlgebra.Lagrange
/-!
# C172: sums over an affine space
-/

namespace Verif.Props
open Poly PolyUtils ReedSolomon Apr
open scoped Polynomial
open Polynomial (C X)

section
variable (p : Nat) [Fact p.Prime] {V : Type} [AddCommGroup V] [Module (Zp p) V] {K : Type} [Field K] [DecidableEq K] [CharP K p] (cast : V → K)

omit [DecidableEq K] [Fact p.Prime] in
theorem derivative_lin (bs : List K) : ∃ c, Polynomial.derivative (lin p bs) = C c := by
  induction bs with
  | nil => exact ⟨1, by simp [lin]⟩
  | cons b bs ih =>
    obtain ⟨c, hc⟩ := ih
    exact ⟨-((lin p bs).eval b ^ (p - 1) * c), by
      rw [lin, Polynomial.derivative_sub, Polynomial.derivative_pow, CharP.cast_eq_zero, Polynomial.derivative_C_mul, hc]; simp⟩

omit [CharP K p] in
theorem sum_over {xs : List K} (hx : xs.Nodup) {c : K} (hc : Polynomial.derivative (xs.map fun x => X - C x).prod = C c) {P : K[X]}
    (hP : P.degree < xs.length) : (xs.map fun x => P.eval x).sum = c * P.coeff (xs.length - 1) ∧ (xs ≠ [] → c ≠ 0) := by
  have hcard : xs.toFinset.card = xs.length := List.toFinset_card_of_nodup hx
  have hn : Lagrange.nodal xs.toFinset (fun x : K => x) = (xs.map fun x => X - C x).prod := by
    rw [Lagrange.nodal, List.prod_toFinset _ hx]
  have hd : ∀ x ∈ xs.toFinset, ∏ j ∈ xs.toFinset.erase x, (x - j) = c := by
    intro x h
    have := Lagrange.eval_nodal_derivative_eval_node_eq (v := fun x : K => x) h
    rw [hn, hc, Polynomial.eval_C, Lagrange.eval_nodal] at this
    exact this.symm
  have hc0 : xs ≠ [] → c ≠ 0 := by
    intro hne
    obtain ⟨x, h⟩ := List.exists_mem_of_ne_nil xs hne
    rw [← hd x (List.mem_toFinset.2 h), Finset.prod_ne_zero_iff]
    exact fun j hj => sub_ne_zero.2 (Finset.mem_erase.1 hj).1.symm
  refine ⟨?_, hc0⟩
  by_cases hne : xs = []
  · subst hne
    simp only [List.map_nil, List.sum_nil]
    have : P = 0 := by simpa using hP
    rw [this]; simp
  have := Lagrange.coeff_eq_sum (s := xs.toFinset) (v := fun x : K => x) (fun _ _ _ _ h => h) (P := P) (by rw [hcard]; exact hP)
  rw [hcard] at this
  rw [this, Finset.mul_sum, ← List.sum_toFinset _ hx]
  refine Finset.sum_congr rfl fun x h => ?_
  rw [hd x h, mul_div_cancel₀ _ (hc0 hne)]

theorem space_facts (hadd : ∀ a b, cast (a + b) = cast a + cast b) (hc : Function.Injective cast) (B : List V) (s : V)
    (hB : LinearIndependent (Zp p) B.get) :
    ∃ q its, affineVanishing (zpIter p (Zp.ofInt (p := p))) cast B s = .ok q ∧ affineIter (zpIter p (Zp.ofInt (p := p))) B s = .ok its ∧
      its.length = p ^ B.length ∧ (its.map cast).Nodup ∧ Polynomial.derivative ((its.map cast).map fun x => X - C x).prod = C (q.getD 1 0) := by
  obtain ⟨q, h1, -, h3⟩ := vanishing_lin p cast hadd B s
  obtain ⟨its, a1, a2, a4, a3⟩ := C22_affine_space p B s
  refine ⟨q, its, h1, a1, by simpa [affineLen] using a4, (a3.2 hB).map hc, ?_⟩
  have e : toPoly q = ((its.map cast).map fun x => X - C x).prod := by
    simp only [affineVanishing, a1, bind, Except.bind, Except.ok.injEq] at h1
    rw [← h1, toPoly_zpoly]
  obtain ⟨c, hd⟩ := derivative_lin p (B.map cast)
  have hdq : Polynomial.derivative (toPoly q) = C c := by
    rw [h3, Polynomial.derivative_comp, hd]; simp
  rw [← e, hdq, ← coeff_toPoly]
  have := congrArg (fun P => Polynomial.coeff P 0) hdq
  simp only [Polynomial.coeff_derivative, Polynomial.coeff_C_zero] at this
  rw [← this]; simp

/-- **C172**, sums: the values of a polynomial with at most as many coefficients as the space has elements add up to its coefficient at
the size of the space minus 1, times the coefficient of the vanishing polynomial at 1, which is not 0. -/
theorem C172_sum (hadd : ∀ a b, cast (a + b) = cast a + cast b) (hc : Function.Injective cast) (B : List V) (s : V)
    (hB : LinearIndependent (Zp p) B.get) :
    ∃ q its, affineVanishing (zpIter p (Zp.ofInt (p := p))) cast B s = .ok q ∧ affineIter (zpIter p (Zp.ofInt (p := p))) B s = .ok its ∧
      q.getD 1 0 ≠ 0 ∧
      ∀ f : List K, f.length ≤ its.length → (its.map fun v => call f (cast v)).sum = q.getD 1 0 * f.getD (its.length - 1) 0 := by
  obtain ⟨q, its, h1, h2, h3, h4, h5⟩ := space_facts p cast hadd hc B s hB
  have hp : 0 < p ^ B.length := pow_pos (Fact.out : p.Prime).pos _
  refine ⟨q, its, h1, h2, ?_, fun f hf => ?_⟩
  · exact (sum_over h4 h5 (P := 0) (by simp)).2 fun h => by simp at h; simp [h] at h3; omega
  · have := (sum_over h4 h5 (P := toPoly f) (Polynomial.degree_lt_iff_coeff_zero _ _ |>.2 fun m hm =>
      coeff_eq_zero_of_length_le (hf.trans (by simpa using hm)))).1
    rw [List.map_map, List.length_map, coeff_toPoly] at this
    rw [← this]
    congr 1
    exact List.map_congr_left fun v _ => by rw [Function.comp, call_eq_eval]

/-- **C172**, sums are 0: the values of a polynomial with fewer coefficients than the space has elements add up to 0. -/
theorem C172_zero (hadd : ∀ a b, cast (a + b) = cast a + cast b) (hc : Function.Injective cast) (B : List V) (s : V)
    (hB : LinearIndependent (Zp p) B.get) (f : List K) (hf : f.length < p ^ B.length) :
    ∃ its, affineIter (zpIter p (Zp.ofInt (p := p))) B s = .ok its ∧ (its.map fun v => call f (cast v)).sum = 0 := by
  obtain ⟨q, its, -, h2, -, h4⟩ := C172_sum p cast hadd hc B s hB
  obtain ⟨its', g1, -, g2, -⟩ := C22_affine_space p B s
  rw [h2] at g1
  cases g1
  rw [affineLen, pow_one] at g2
  refine ⟨its, h2, ?_⟩
  rw [h4 f (by omega), List.getD_eq_default (l := f) (d := 0) (n := its.length - 1) (by omega), mul_zero]

/-- **C172**, parity checks: a list of values on the space is that of a polynomial with at most `k` coefficients, the one
`lagrange_interp` returns, exactly when its products with the first `size - k` powers add up to 0. -/
theorem C172_parity (hadd : ∀ a b, cast (a + b) = cast a + cast b) (hc : Function.Injective cast) (B : List V) (s : V)
    (hB : LinearIndependent (Zp p) B.get) :
    ∃ its, affineIter (zpIter p (Zp.ofInt (p := p))) B s = .ok its ∧ its.length = p ^ B.length ∧ ∀ ys : List K, ys.length = its.length →
      ∃ f, lagrangeInterp (its.map cast) ys = .ok f ∧ ys = its.map (fun v => call f (cast v)) ∧
        ∀ k ≤ its.length, f.length ≤ k ↔ ∀ j < its.length - k, ((its.zip ys).map fun vy => vy.2 * cast vy.1 ^ j).sum = 0 := by
  obtain ⟨q, its, h1, h2, h3, h4, h5⟩ := space_facts p cast hadd hc B s hB
  have hp : 0 < p ^ B.length := pow_pos (Fact.out : p.Prime).pos _
  refine ⟨its, h2, h3, fun ys hy => ?_⟩
  obtain ⟨f, f1, f2, f3⟩ := C20_lagrange_interp (its.map cast) ys h4 (by simpa using hy)
  have hv : ys = its.map (fun v => call f (cast v)) := by
    rw [← f3.1.2, List.map_map]
    exact List.map_congr_left fun v _ => (call_eq_eval f _).symm
  have hc0 : q.getD 1 0 ≠ 0 := (sum_over h4 h5 (P := 0) (by simp)).2 fun h => by simp at h; simp [h] at h3; omega
  have hs : ∀ j, ((its.zip ys).map fun vy => vy.2 * cast vy.1 ^ j).sum = ((its.map cast).map fun x => (toPoly f * X ^ j).eval x).sum := by
    intro j
    rw [hv, List.map_map]
    congr 1
    have : its.zip (its.map fun v => call f (cast v)) = its.map fun v => (v, call f (cast v)) := by
      rw [List.zip_map_right, List.zip_eq_zipWith, List.map_zipWith]
      simp
    rw [this, List.map_map]
    exact List.map_congr_left fun v _ => by simp [call_eq_eval]
  have key : ∀ j < its.length, (toPoly f).degree < ((its.length - j : Nat) : WithBot Nat) →
      ((its.zip ys).map fun vy => vy.2 * cast vy.1 ^ j).sum = q.getD 1 0 * (toPoly f).coeff (its.length - 1 - j) := by
    intro j hj hd
    rw [hs, (sum_over h4 h5 (P := toPoly f * X ^ j) ?_).1, List.length_map]
    · congr 1
      rw [show its.length - 1 = its.length - 1 - j + j by omega, Polynomial.coeff_mul_X_pow]
      congr 1; omega
    · rw [Polynomial.degree_lt_iff_coeff_zero] at hd ⊢
      intro m hm
      rw [List.length_map] at hm
      rw [Polynomial.coeff_mul_X_pow', if_pos (by omega)]
      exact hd _ (by omega)
  refine ⟨f, f1, hv, fun k hk => ⟨fun hf j hj => ?_, fun h => ?_⟩⟩
  · rw [key j (by omega) (Polynomial.degree_lt_iff_coeff_zero _ _ |>.2 fun m hm => coeff_eq_zero_of_length_le (by omega)),
      coeff_eq_zero_of_length_le (by omega), mul_zero]
  · have hl : ∀ j ≤ its.length - k, (toPoly f).degree < ((its.length - j : Nat) : WithBot Nat) := by
      intro j
      induction j with
      | zero => intro _; simpa using f3.1.1
      | succ j ih =>
        intro hj
        have hd := ih (by omega)
        have := key j (by omega) hd
        rw [h j (by omega)] at this
        have h0 := (mul_eq_zero.1 this.symm).resolve_left hc0
        rw [Polynomial.degree_lt_iff_coeff_zero] at hd ⊢
        intro m hm
        by_cases hm' : m = its.length - 1 - j
        · rw [hm', h0]
        · exact hd m (by omega)
    have := hl _ le_rfl
    rw [show its.length - (its.length - k) = k by omega, Polynomial.degree_lt_iff_coeff_zero] at this
    exact length_le_of_canon f2 _ this

omit [DecidableEq K] in
theorem dependent_sum (g : V → K) (B : List V) (hB : ¬ LinearIndependent (Zp p) B.get) (s : V) : ((items p B s).map g).sum = 0 := by
  induction B generalizing s with
  | nil => exact absurd (@linearIndependent_empty_type (Fin 0) _ _ _ _ _ _ _) hB
  | cons b B ih =>
    have hflat : ∀ (l : List Nat), ((l.flatMap fun i => items p B (s + i • b)).map g).sum = (l.map fun i => ((items p B (s + i • b)).map g).sum).sum := by
      intro l
      induction l with
      | nil => rfl
      | cons i l ihl => rw [List.flatMap_cons, List.map_append, List.sum_append, ihl, List.map_cons, List.sum_cons]
    rw [items, hflat]
    by_cases h : LinearIndependent (Zp p) B.get
    · have e : (b :: B).get = Fin.cons b B.get := by
        funext i
        refine Fin.cases ?_ (fun j => ?_) i <;> rfl
      have hb : b ∈ Submodule.span (Zp p) {x | x ∈ B} := by
        by_contra hb
        apply hB
        rw [e]
        refine linearIndependent_finCons.2 ⟨h, fun h' => hb ?_⟩
        convert h' using 2
        ext x
        simp [List.mem_iff_get]
      have hp : ∀ i : Nat, ((items p B (s + i • b)).map g).sum = ((items p B s).map g).sum := by
        intro i
        obtain ⟨i1, a1, a2, -, a3⟩ := C22_affine_space p B s
        obtain ⟨i2, b1, b2, -, b3⟩ := C22_affine_space p B (s + i • b)
        rw [items_eq] at a1 b1
        cases a1
        cases b1
        refine ((List.Perm.map g ((List.perm_ext_iff_of_nodup (b3.2 h) (a3.2 h)).2 fun v => ?_))).sum_eq
        have hi : i • b ∈ Submodule.span (Zp p) {x | x ∈ B} := nsmul_mem hb i
        rw [a2, b2, show v - (s + i • b) = v - s - i • b by abel]
        exact Submodule.sub_mem_iff_left _ hi
      simp only [hp]
      simp
    · simp only [ih h]
      simp

omit [DecidableEq K] in
/-- **C172**, dependent bases: whatever is added up over the items, polynomial or not, the sum is 0. -/
theorem C172_dependent (B : List V) (s : V) (hB : ¬ LinearIndependent (Zp p) B.get) (g : V → K) :
    ∃ its, affineIter (zpIter p (Zp.ofInt (p := p))) B s = .ok its ∧ (its.map g).sum = 0 :=
  ⟨_, items_eq p B s, dependent_sum p g B hB s⟩

omit [CharP K p] in
/-- **C172**, distance: two different polynomials with at most `k` coefficients agree at fewer than `k` items of the space. -/
theorem C172_distance (hc : Function.Injective cast) (B : List V) (s : V) (hB : LinearIndependent (Zp p) B.get) (k : Nat) (f g : List K)
    (hf : Canon f) (hg : Canon g) (hfk : f.length ≤ k) (hgk : g.length ≤ k) (hne : f ≠ g) :
    ∃ its, affineIter (zpIter p (Zp.ofInt (p := p))) B s = .ok its ∧ its.length = p ^ B.length ∧
      (its.filter fun v => decide (call f (cast v) = call g (cast v))).length < k := by
  obtain ⟨its, a1, -, a2, a3⟩ := C22_affine_space p B s
  refine ⟨its, a1, by simpa [affineLen] using a2, ?_⟩
  by_contra hk
  apply hne
  have hn : ((its.filter fun v => decide (call f (cast v) = call g (cast v))).map cast).Nodup := ((a3.2 hB).filter _).map hc
  refine toPoly_inj hf hg (Polynomial.eq_of_degree_sub_lt_of_eval_finset_eq
    ((its.filter fun v => decide (call f (cast v) = call g (cast v))).map cast).toFinset ?_ fun x hx => ?_)
  · rw [List.toFinset_card_of_nodup hn, List.length_map, Polynomial.degree_lt_iff_coeff_zero]
    intro m hm
    rw [Polynomial.coeff_sub, coeff_eq_zero_of_length_le (by omega), coeff_eq_zero_of_length_le (by omega), sub_zero]
  · rw [List.mem_toFinset, List.mem_map] at hx
    obtain ⟨v, hv, rfl⟩ := hx
    rw [← call_eq_eval, ← call_eq_eval]
    simpa using (List.mem_filter.1 hv).2

end

/-- On the space spanned by `1, x` in GF(8), whose vanishing polynomial has the coefficient `x + x²` at 1, the cubes add up to `x + x²` and
the squares to 0. This meets the hypotheses of `C172_sum`, `C172_zero` and `C172_parity`. -/
example : letI := gf8Module
    LinearIndependent (Zp 2) [1, gf8x].get ∧ CharP (FF.Fq gf8) 2 ∧ Function.Injective (id : FF.Fq gf8 → FF.Fq gf8) ∧
    ([0, gf8x, 1, 1 + gf8x].map fun v => call ([0, 0, 0, 1] : List (FF.Fq gf8)) v).sum = gf8x + gf8x ^ 2 ∧ ([0, gf8x, 1, 1 + gf8x].map fun v => call ([0, 0, 1] : List (FF.Fq gf8)) v).sum = 0 := by
  let _ := gf8Module
  exact ⟨(gf8_indep _ [0, gf8x, 1, 1 + gf8x] (by decide +kernel)).1 (by decide +kernel), charP_gf8, Function.injective_id, by decide +kernel, by decide +kernel⟩

/-- The items of the space spanned by `x, x` in GF(8), which are `0, x, x, 0`. This meets the hypotheses of `C172_dependent`. -/
example : letI := gf8Module
    ¬ LinearIndependent (Zp 2) [gf8x, gf8x].get ∧ affineIter (zpIter 2 (Zp.ofInt (p := 2))) [gf8x, gf8x] (1 : FF.Fq gf8) = .ok [1, 1 + gf8x, 1 + gf8x, 1] := by
  let _ := gf8Module
  exact ⟨fun h => absurd ((gf8_indep _ [0, gf8x, gf8x, 0] (by decide +kernel)).2 h) (by decide +kernel), by decide +kernel⟩

/-- `t²` and `t` on the space spanned by `1, x` in GF(8): they have three coefficients at most and agree at two of the four items. This meets the
hypotheses of `C172_distance`. -/
example : letI := gf8Module
    LinearIndependent (Zp 2) [1, gf8x].get ∧ Canon ([0, 0, 1] : List (FF.Fq gf8)) ∧ Canon ([0, 1] : List (FF.Fq gf8)) ∧ ([0, 0, 1] : List (FF.Fq gf8)) ≠ [0, 1] ∧
    ([0, gf8x, 1, 1 + gf8x].filter fun v => decide (call ([0, 0, 1] : List (FF.Fq gf8)) v = call ([0, 1] : List (FF.Fq gf8)) v)) = [0, 1] := by
  let _ := gf8Module
  exact ⟨(gf8_indep _ [0, gf8x, 1, 1 + gf8x] (by decide +kernel)).1 (by decide +kernel), by simp [Canon], by simp [Canon], by simp, by decide +kernel⟩

end Verif.Props
