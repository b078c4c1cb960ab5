import Verif.Proofs.Stark
import Verif.Props.FFT
import Verif.Props.Utils
import Verif.Proofs.SmallPrimes
/-!
# C47–C49, C52, C73: the polynomials of the STARK prover

`(toPoly f).eval x` is Mathlib's evaluation of the polynomial with coefficient list `f`; `HasOrder g n` says that `n` is the
multiplicative order of `g`.  A witness is a list of columns; `wrow W i` is its `i`-th row.  `IsStep` is in `Verif.Spec.Air`.
-/

namespace Verif.Props
open Poly Stark Air
open scoped Polynomial
open Polynomial (C X)
open Mv (Dict toMv)

section
variable {K : Type} [Field K] [DecidableEq K]

/-- **C47**. If `g` has order `steps = 2^k` or `3·2^k` and every column of the witness has `steps` entries, the trace polynomials
have degree below `steps` and take the witness values at `1, g, g^2, …`. -/
theorem C47_trace_polynomials (p : Nat) [Fact p.Prime] [CharP K p] (g : K) (steps k : Nat) (hk : steps = 2 ^ k ∨ steps = 3 * 2 ^ k)
    (hg : HasOrder g steps) (W : List (List K)) (hW : ∀ col ∈ W, col.length = steps) :
    ∃ N, ∀ fuel ≥ N, ∃ P, tracePolys fuel p g W = .ok P ∧ P.length = W.length ∧
      ∀ (d : Nat) (col f : List K), W[d]? = some col → P[d]? = some f →
        (toPoly f).degree < steps ∧ ∀ (i : Nat) (v : K), col[i]? = some v → (toPoly f).eval (g ^ i) = v := by
  refine ⟨steps, fun fuel hf => ?_⟩
  obtain ⟨P, h1, h2, h3⟩ := tracePolys_spec (p := p) ((FFT.good_iff _).2 ⟨k, hk⟩) hg.eq (fun c hc => (hW c hc).le) fuel hf
  refine ⟨P, h1, h2, fun d col f hd hfd => ?_⟩
  obtain ⟨f', e1, e2, e3, e4⟩ := h3 d col hd
  rw [hfd] at e1
  cases e1
  refine ⟨Polynomial.degree_lt_iff_coeff_zero _ _ |>.2 fun m hm => coeff_eq_zero_of_length_le (by omega), fun i v hv => ?_⟩
  have hi : i < steps := by
    rw [← hW col (List.mem_of_getElem? hd)]
    exact (List.getElem?_eq_some_iff.1 hv).1
  rw [e4 i hi, List.getD_eq_getElem?_getD, hv]
  rfl

/-- **C47**, shorter columns: they are taken as if zeros followed. -/
theorem C47_short_columns (p : Nat) [Fact p.Prime] [CharP K p] (g : K) (steps k : Nat) (hk : steps = 2 ^ k ∨ steps = 3 * 2 ^ k)
    (hg : HasOrder g steps) (W : List (List K)) (hW : ∀ col ∈ W, col.length ≤ steps) :
    ∃ N, ∀ fuel ≥ N, ∃ P, tracePolys fuel p g W = .ok P ∧ P.length = W.length ∧
      ∀ (d : Nat) (col f : List K), W[d]? = some col → P[d]? = some f →
        (toPoly f).degree < steps ∧ ∀ i, i < steps → (toPoly f).eval (g ^ i) = col.getD i 0 := by
  refine ⟨steps, fun fuel hf => ?_⟩
  obtain ⟨P, h1, h2, h3⟩ := tracePolys_spec (p := p) ((FFT.good_iff _).2 ⟨k, hk⟩) hg.eq hW fuel hf
  refine ⟨P, h1, h2, fun d col f hd hfd => ?_⟩
  obtain ⟨f', e1, e2, e3, e4⟩ := h3 d col hd
  rw [hfd] at e1
  cases e1
  exact ⟨Polynomial.degree_lt_iff_coeff_zero _ _ |>.2 fun m hm => coeff_eq_zero_of_length_le (by omega), e4⟩

/-- **C47**, the other sizes: with a root of any other order the construction raises `IndexError` (as soon as there is a column).
511, the only number of steps the AIR accepts (C45), is one of them. -/
theorem C47_other_sizes (p : Nat) (g : K) (steps : Nat) (hk : ∀ k, steps ≠ 2 ^ k ∧ steps ≠ 3 * 2 ^ k) (hg : HasOrder g steps)
    (W : List (List K)) (h0 : W ≠ []) (hW : ∀ col ∈ W, col.length ≤ steps) :
    ∃ N, ∀ fuel ≥ N, tracePolys fuel p g W = .error .indexError := by
  have hgood : ¬ FFT.Good steps := fun h => by
    obtain ⟨k, h | h⟩ := (FFT.good_iff steps).1 h
    · exact (hk k).1 h
    · exact (hk k).2 h
  refine ⟨steps, fun fuel hf => ?_⟩
  have : ∀ col ∈ W, FFT.nbInvFft fuel p g col = .error .indexError := by
    intro col hc
    simp only [FFT.nbInvFft, FFT.fft1d_bad hg.1 hgood g hg.eq p col (hW col hc) true fuel hf, bind, Except.bind]
  obtain ⟨col, hc⟩ := List.exists_mem_of_ne_nil W h0
  exact pyMap_fails (fun a ha => .inr (this a ha)) ⟨col, hc, this col hc⟩

theorem C47_air_steps : ∀ k : Nat, 511 ≠ 2 ^ k ∧ 511 ≠ 3 * 2 ^ k := by
  intro k
  by_cases hk : k < 10
  · interval_cases k <;> decide
  · have : 2 ^ 10 ≤ 2 ^ k := Nat.pow_le_pow_right (by norm_num) (by omega)
    constructor <;> omega

theorem toPoly_const_of_short {f : List K} (h : f.length ≤ 1) : ∃ v, toPoly f = C v := by
  match f, h with
  | [], _ => exact ⟨0, by simp [toPoly_nil]⟩
  | [v], _ => exact ⟨v, by simp [toPoly]⟩

/-- **C48** (fields of prime order; `C48_extension_field_refuted` is about the others). From any witness with `width` columns of `steps` entries, in which a coordinate
whose step polynomial is the zero polynomial has two different entries (`C48_zero_step_refuted` is about the others), the
prover's remainder computation returns exactly when each row is the step of the row before, and raises an assertion error
otherwise; when it returns, the `d`-th constraint polynomial is `(x-1)(x-g)⋯(x-g^(steps-2))` times the `d`-th remainder
polynomial, and its value at `x` is `P_d(g x) - f_d(P_0(x), …, P_(width-1)(x))`. -/
theorem C48_remainder_partial (p : Nat) [Fact p.Prime] [CharP K p] (g : K) (steps k : Nat)
    (hk : steps = 2 ^ k ∨ steps = 3 * 2 ^ k) (hg : HasOrder g steps) (width : Nat) (polys : List (Dict K))
    (hw : ∀ f ∈ polys, Mv.WF width f) (hp : width ≤ polys.length)
    (W : List (List K)) (hWl : W.length = width) (hW : ∀ col ∈ W, col.length = steps)
    (hne : ∀ (d : Nat) (col : List K), polys[d]? = some [] → W[d]? = some col → ∃ a ∈ col, ∃ b ∈ col, a ≠ b) :
    ∃ N, ∀ fuel ≥ N, ∃ P cps, tracePolys fuel p g W = .ok P ∧ constraintPolys width polys P g = .ok cps ∧ cps.length = width ∧
      (∀ d, d < width → ∃ c f Pd, cps[d]? = some (.poly c) ∧ polys[d]? = some f ∧ P[d]? = some Pd ∧
        ∀ x : K, ∃ v, Mv.call width f (P.map fun q => (toPoly q).eval x) = .ok v ∧
          (toPoly c).eval x = (toPoly Pd).eval (g * x) - v) ∧
      ((∀ i, i + 1 < steps → IsStep width width polys (wrow W i) (wrow W (i + 1))) →
        ∃ D, remainderPolys cps steps (g ^ (steps - 1)) = .ok D ∧ D.length = width ∧
          ∀ d, d < width → ∃ c q, cps[d]? = some (.poly c) ∧ D[d]? = some q ∧ Canon q ∧
            toPoly c = (∏ i ∈ Finset.range (steps - 1), (X - C (g ^ i))) * toPoly q) ∧
      ((¬ ∀ i, i + 1 < steps → IsStep width width polys (wrow W i) (wrow W (i + 1))) →
        remainderPolys cps steps (g ^ (steps - 1)) = .error .assertion) := by
  refine ⟨steps, fun fuel hf => ?_⟩
  obtain ⟨P, h1, h2, h3⟩ := tracePolys_spec (p := p) ((FFT.good_iff _).2 ⟨k, hk⟩) hg.eq (fun c hc => (hW c hc).le) fuel hf
  have hPl : P.length = width := h2.trans hWl
  obtain ⟨cps, c1, c2, c3⟩ := constraintPolys_spec hw P hPl hp g
  have hpoly : ∀ d, d < width → ∃ c, cps[d]? = some (.poly c) ∧ Canon c ∧
      toPoly c = cpoly width g P (polys.getD d []) (P.getD d []) := by
    intro d hd
    obtain ⟨c, e1, e2, e3, e4, -⟩ := c3 d hd
    obtain ⟨h, rfl⟩ := e4 (by
      have hdp : d < polys.length := by omega
      have hdW : d < W.length := by omega
      rw [List.getD_eq_getElem?_getD, List.getElem?_eq_getElem hdp, Option.getD_some]
      by_cases h0 : polys[d] = []
      · right
        obtain ⟨a, ha, b, hb, hab⟩ := hne d W[d] (by rw [List.getElem?_eq_getElem hdp, h0]) (by simp)
        obtain ⟨f, f1, f2, f3, f4⟩ := h3 d W[d] (by simp)
        rw [List.getD_eq_getElem?_getD, f1, Option.getD_some]
        by_contra hlt
        obtain ⟨v, hv⟩ := toPoly_const_of_short (f := f) (by omega)
        obtain ⟨i, hi, rfl⟩ := List.getElem_of_mem ha
        obtain ⟨j, hj, rfl⟩ := List.getElem_of_mem hb
        have hl := hW _ (List.getElem_mem hdW)
        have hi' := f4 i (by omega)
        have hj' := f4 j (by omega)
        rw [hv, Polynomial.eval_C, List.getD_eq_getElem?_getD, List.getElem?_eq_getElem hi, Option.getD_some] at hi'
        rw [hv, Polynomial.eval_C, List.getD_eq_getElem?_getD, List.getElem?_eq_getElem hj, Option.getD_some] at hj'
        exact hab (hi'.symm.trans hj')
      · exact .inl h0)
    exact ⟨h, e1, e3, e2⟩
  have hcps : ∀ c ∈ cps, ∃ f, c = .poly f ∧ Canon f := by
    intro c hc
    obtain ⟨d, hd, rfl⟩ := List.getElem_of_mem hc
    obtain ⟨f, f1, f2, -⟩ := hpoly d (by omega)
    exact ⟨f, (List.getElem?_eq_some_iff.1 f1).2, f2⟩
  have hexec : (∀ c ∈ cps, zprod g (steps - 1) ∣ c.toP) ↔
      ∀ i, i + 1 < steps → IsStep width width polys (wrow W i) (wrow W (i + 1)) := by
    have h4 := zprod_dvd_exec hw P hPl hp hg.eq
    have h5 : (∀ c ∈ cps, zprod g (steps - 1) ∣ c.toP) ↔
        ∀ d, d < width → zprod g (steps - 1) ∣ cpoly width g P (polys.getD d []) (P.getD d []) := by
      constructor
      · intro h d hd
        obtain ⟨c, e1, e2, -⟩ := c3 d hd
        rw [← e2]
        exact h c (List.mem_of_getElem? e1)
      · intro h c hc
        obtain ⟨d, hd, rfl⟩ := List.getElem_of_mem hc
        obtain ⟨c, e1, e2, -⟩ := c3 d (by omega)
        have : cps[d] = c := (List.getElem?_eq_some_iff.1 e1).2
        rw [this, e2]
        exact h d (by omega)
    rw [h5, h4]
    refine forall_congr' fun i => imp_congr_right fun hi => ?_
    rw [row_eq_wrow h2 h3 i (by omega), row_eq_wrow h2 h3 (i + 1) (by omega)]
  obtain ⟨r1, r2⟩ := remainder_spec hg.1 hg.eq cps hcps
  refine ⟨P, cps, h1, c1, c2, ?_, ?_, ?_⟩
  · intro d hd
    obtain ⟨c, e1, -, e2⟩ := hpoly d hd
    have hdp : d < polys.length := by omega
    have hdP : d < P.length := by omega
    refine ⟨c, polys[d], P[d], e1, by simp, by simp, fun x => ?_⟩
    refine ⟨_, Mv.call_spec (hw _ (List.getElem_mem hdp)).len _ (by simpa using hPl), ?_⟩
    rw [e2, cpoly_eval]
    simp only [List.getD_eq_getElem?_getD, List.getElem?_eq_getElem hdp, List.getElem?_eq_getElem hdP, Option.getD_some,
      List.getElem?_map]
    congr 2
    congr 1
    funext j
    rcases P[(j : Nat)]? with _ | q <;> simp [toPoly_nil]
  · intro h
    obtain ⟨D, d1, d2, d3⟩ := r1 (hexec.2 h)
    refine ⟨D, d1, d2.trans c2, fun d hd => ?_⟩
    obtain ⟨c, e1, -, -⟩ := hpoly d hd
    obtain ⟨q, q1, q2, q3⟩ := d3 d _ e1
    exact ⟨c, q, e1, q1, q2, q3⟩
  · intro h
    exact r2 fun h' => h (hexec.1 h')

/-- **C48** fails in general: when the step polynomial of some coordinate is the zero polynomial and the column of that coordinate
is constant, the prover raises `TypeError` on every valid execution (the constraint is a field element, which has no `%`). -/
theorem C48_zero_step_refuted (p : Nat) [Fact p.Prime] [CharP K p] (g : K) (steps k : Nat)
    (hk : steps = 2 ^ k ∨ steps = 3 * 2 ^ k) (hg : HasOrder g steps) (width : Nat) (polys : List (Dict K))
    (hw : ∀ f ∈ polys, Mv.WF width f) (hp : width ≤ polys.length)
    (W : List (List K)) (hWl : W.length = width) (hW : ∀ col ∈ W, col.length = steps)
    (hvalid : ∀ i, i + 1 < steps → IsStep width width polys (wrow W i) (wrow W (i + 1)))
    (d : Nat) (a : K) (h0 : polys[d]? = some []) (hcol : W[d]? = some (List.replicate steps a)) :
    ∃ N, ∀ fuel ≥ N, ∃ P cps, tracePolys fuel p g W = .ok P ∧ constraintPolys width polys P g = .ok cps ∧
      remainderPolys cps steps (g ^ (steps - 1)) = .error .typeError := by
  refine ⟨steps, fun fuel hf => ?_⟩
  obtain ⟨P, h1, h2, h3⟩ := tracePolys_spec (p := p) ((FFT.good_iff _).2 ⟨k, hk⟩) hg.eq (fun c hc => (hW c hc).le) fuel hf
  have hPl : P.length = width := h2.trans hWl
  obtain ⟨cps, c1, c2, c3⟩ := constraintPolys_spec hw P hPl hp g
  have hd : d < width := by
    have := (List.getElem?_eq_some_iff.1 hcol).1
    omega
  have hexec := (zprod_dvd_exec hw P hPl hp hg.eq).2 (fun i hi => by
    rw [row_eq_wrow h2 h3 i (by omega), row_eq_wrow h2 h3 (i + 1) (by omega)]
    exact hvalid i hi)
  refine ⟨P, cps, h1, c1, remainder_elt hg.1 hg.eq cps ?_ ?_ ?_⟩
  · intro c hc
    obtain ⟨e, he, rfl⟩ := List.getElem_of_mem hc
    obtain ⟨c, e1, -, e3, -⟩ := c3 e (by omega)
    rw [(List.getElem?_eq_some_iff.1 e1).2]
    exact e3
  · intro c hc
    obtain ⟨e, he, rfl⟩ := List.getElem_of_mem hc
    obtain ⟨c, e1, e2, -⟩ := c3 e (by omega)
    rw [(List.getElem?_eq_some_iff.1 e1).2, e2]
    exact hexec e (by omega)
  · obtain ⟨c, e1, -, -, -, e5⟩ := c3 d hd
    obtain ⟨f, f1, f2, f3, f4⟩ := h3 d _ hcol
    obtain ⟨v, rfl⟩ := e5 (by rw [List.getD_eq_getElem?_getD, h0]; rfl) (by
      rw [List.getD_eq_getElem?_getD, f1, Option.getD_some]
      refine length_le_of_canon f2 1 fun i hi => ?_
      have : toPoly f = C a := by
        have hcard : ((Finset.range steps).image fun i => g ^ i).card = steps := by
          rw [Finset.card_image_of_injOn, Finset.card_range]
          intro i hi j hj hij
          exact pow_inj_of_order hg.eq i j (by simpa using hi) (by simpa using hj) hij
        refine Polynomial.eq_of_degree_sub_lt_of_eval_finset_eq ((Finset.range steps).image fun i => g ^ i) ?_ ?_
        · rw [hcard]
          refine lt_of_le_of_lt (Polynomial.degree_sub_le _ _) (max_lt ?_ ?_)
          · exact Polynomial.degree_lt_iff_coeff_zero _ _ |>.2 fun m hm => coeff_eq_zero_of_length_le (by omega)
          · exact lt_of_le_of_lt Polynomial.degree_C_le (by exact_mod_cast hg.1)
        · intro y hy
          simp only [Finset.mem_image, Finset.mem_range] at hy
          obtain ⟨i, hi, rfl⟩ := hy
          rw [f4 i hi]
          simp [hi]
      rw [this, Polynomial.coeff_C, if_neg (by omega)])
    exact ⟨v, List.mem_of_getElem? e1⟩

/-- **C49**. If the witness starts with the boundary input and ends, in every coordinate, with a value other than 0, the boundary
polynomials `B_d` satisfy `P_d = I_d + B_d · (x-1)(x-x_last)`, where `I_d` has degree at most 1, takes the input at 1 and the output
at `x_last`. -/
theorem C49_boundary_partial (p : Nat) [Fact p.Prime] [CharP K p] (g : K) (steps k : Nat)
    (hk : steps = 2 ^ k ∨ steps = 3 * 2 ^ k) (hg : HasOrder g steps) (h2 : 2 ≤ steps) (width : Nat) (W : List (List K))
    (hWl : W.length = width) (hW : ∀ col ∈ W, col.length = steps) (boundary : List (Nat × Nat × K))
    (hb : ∀ (d : Nat) (col : List K), W[d]? = some col → ∃ i j inp, boundary[d]? = some (i, j, inp) ∧ col.head? = some inp)
    (hout : ∀ col ∈ W, ∀ out, col.getLast? = some out → out ≠ 0) :
    ∃ N, ∀ fuel ≥ N, ∃ P B, tracePolys fuel p g W = .ok P ∧ boundaryPolys P W boundary (g ^ (steps - 1)) width = .ok B ∧
      B.length = width ∧ ∀ (d : Nat) (col : List K), W[d]? = some col →
        ∃ Pd Bd inp out, P[d]? = some Pd ∧ B[d]? = some Bd ∧ Canon Bd ∧ col.head? = some inp ∧ col.getLast? = some out ∧
          ∃ I : K[X], I.degree ≤ 1 ∧ I.eval 1 = inp ∧ I.eval (g ^ (steps - 1)) = out ∧
            toPoly Pd = I + toPoly Bd * ((X - 1) * (X - C (g ^ (steps - 1)))) := by
  refine ⟨steps, fun fuel hf => ?_⟩
  obtain ⟨P, h1, h3, h4⟩ := tracePolys_spec (p := p) ((FFT.good_iff _).2 ⟨k, hk⟩) hg.eq (fun c hc => (hW c hc).le) fuel hf
  have hl0 : g ^ (steps - 1) ≠ 0 := by
    intro h
    have := hg.2.1
    rw [show steps = steps - 1 + 1 by omega, pow_succ, h, zero_mul] at this
    exact zero_ne_one this
  have hl1 : g ^ (steps - 1) ≠ 1 := hg.2.2 _ (by omega) (by omega)
  obtain ⟨B, b1, b2, b3⟩ := (boundary_spec (tr := P) (witness := W) (boundary := boundary) (width := width) hl0 hl1 (h3.trans hWl)
    (fun d => (W.getD d []).headD 0) (fun d => (W.getD d []).getLastD 0) (by
      intro d hd
      obtain ⟨i, j, inp, e1, e2⟩ := hb d W[d] (by simp)
      refine ⟨i, j, ?_⟩
      rw [e1, List.headD_eq_head?_getD, List.getD_eq_getElem?_getD, List.getElem?_eq_getElem (by omega), Option.getD_some, e2]
      rfl) (by
      intro d hd
      have hd' : d < W.length := by omega
      have hc := hW W[d] (List.getElem_mem _)
      refine ⟨W[d], by simp, ?_⟩
      rw [List.getLastD_eq_getLast?, List.getD_eq_getElem?_getD, List.getElem?_eq_getElem hd', Option.getD_some]
      have hne : W[d] ≠ [] := by intro h; rw [h] at hc; simp at hc; omega
      rw [List.getLast?_eq_some_getLast hne]
      rfl)).1 (by
      intro d hd
      have hd' : d < W.length := by omega
      have hc := hW W[d] (List.getElem_mem _)
      have hne : W[d] ≠ [] := by intro h; rw [h] at hc; simp at hc; omega
      have := hout W[d] (List.getElem_mem _) _ (List.getLast?_eq_some_getLast hne)
      rw [List.getLastD_eq_getLast?, List.getD_eq_getElem?_getD, List.getElem?_eq_getElem hd', Option.getD_some,
        List.getLast?_eq_some_getLast hne]
      exact this)
  refine ⟨P, B, h1, b1, b2, fun d col hd => ?_⟩
  obtain ⟨Pd, e1, e2, e3, e4⟩ := h4 d col hd
  obtain ⟨Bd, I, f1, f2, f3, f4, f5, f6, -, f8⟩ := b3 d Pd e1
  have hcl := hW col (List.mem_of_getElem? hd)
  obtain ⟨i, j, inp, g1, g2⟩ := hb d col hd
  have hne : col ≠ [] := by intro h; rw [h] at hcl; simp at hcl; omega
  have hin : (W.getD d []).headD 0 = inp := by
    rw [List.headD_eq_head?_getD, List.getD_eq_getElem?_getD, hd, Option.getD_some, g2]; rfl
  have hou : (W.getD d []).getLastD 0 = col.getLast hne := by
    rw [List.getLastD_eq_getLast?, List.getD_eq_getElem?_getD, hd, Option.getD_some, List.getLast?_eq_some_getLast hne]; rfl
  rw [hin] at f5 f8
  rw [hou] at f6 f8
  refine ⟨Pd, Bd, inp, col.getLast hne, e1, f1, f2, g2, List.getLast?_eq_some_getLast hne, toPoly I, ?_, f5, f6, f8 ?_ ?_⟩
  · exact Polynomial.degree_le_of_natDegree_le (natDegree_toPoly_le f4)
  · have := e4 0 (by omega)
    rw [pow_zero] at this
    rw [this, List.getD_eq_getElem?_getD, ← List.head?_eq_getElem?, g2]
    rfl
  · rw [e4 (steps - 1) (by omega), List.getD_eq_getElem?_getD, List.getLast_eq_getElem, ← hcl]
    rw [List.getElem?_eq_getElem (by omega)]
    rfl

/-- **C49** fails in general: if some coordinate of the output is 0, whatever the witness and the trace polynomials, the
construction raises `IndexError`. -/
theorem C49_boundary_refuted (P W : List (List K)) (boundary : List (Nat × Nat × K)) (last : K) (h0 : last ≠ 0) (h1 : last ≠ 1)
    (width : Nat) (hWl : W.length = width) (hPl : P.length = width) (hbl : boundary.length = width) (hW : ∀ col ∈ W, col ≠ [])
    (hz : ∃ col ∈ W, col.getLast? = some 0) : boundaryPolys P W boundary last width = .error .indexError := by
  refine (boundary_spec (tr := P) (witness := W) (boundary := boundary) (width := width) h0 h1 hPl
    (fun d => (boundary.getD d (0, 0, 0)).2.2) (fun d => (W.getD d []).getLastD 0) ?_ ?_).2 ?_
  · intro d hd
    refine ⟨(boundary.getD d (0, 0, 0)).1, (boundary.getD d (0, 0, 0)).2.1, ?_⟩
    rw [List.getD_eq_getElem?_getD, List.getElem?_eq_getElem (by omega)]
    rfl
  · intro d hd
    have hd' : d < W.length := by omega
    refine ⟨W[d], by simp, ?_⟩
    rw [List.getLastD_eq_getLast?, List.getD_eq_getElem?_getD, List.getElem?_eq_getElem hd', Option.getD_some,
      List.getLast?_eq_some_getLast (hW _ (List.getElem_mem hd'))]
    rfl
  · obtain ⟨col, hc, hl⟩ := hz
    obtain ⟨d, hd, rfl⟩ := List.getElem_of_mem hc
    refine ⟨d, by omega, ?_⟩
    rw [List.getLastD_eq_getLast?, List.getD_eq_getElem?_getD, List.getElem?_eq_getElem hd, Option.getD_some, hl]
    rfl

/-- **C52** (fields of prime order; `C52_extension_field_refuted` is about the others). For `1 ≤ width < 10` and a degree parameter of at least 2, the combination is
`Σ_i (1 + κ_i v)·(D_i + (k1 + k2 v)·P_i + (k3 + k4 v)·B_i)` with `v = (G^steps)^(deg-1)`, where the ints `k1, …, k4` and
`κ_0, …, κ_(width-1)` are what `get_pseudorandom_ks` returns for the entropy, so do not depend on the polynomials; and its degree is
less than any bound on theirs. -/
theorem C52_combination_partial (blake : Bytes → Bytes) (hb : ∀ x, (blake x).length = 32) (entropy : Bytes) (width : Nat)
    (h0 : 0 < width) (h10 : width < 10) (G : K) (deg steps : Nat) (hd : 2 ≤ deg) :
    ∃ (k1 k2 k3 k4 : Nat) (ks : List Nat), Utils.getPseudorandomKs blake entropy 4 = some [k1, k2, k3, k4] ∧
      Utils.getPseudorandomKs blake entropy width = some ks ∧ ks.length = width ∧
      ∀ P D B : List (List K), P.length = width → D.length = width → B.length = width →
        ∃ l, combination blake entropy P D B G deg steps width = .ok (some l) ∧ Canon l ∧
          (let v := (G ^ steps) ^ (deg - 1);
            toPoly l = ∑ i ∈ Finset.range width, C (1 + (ks.getD i 0 : K) * v) *
              (toPoly (D.getD i []) + C ((k1 : K) + k2 * v) * toPoly (P.getD i []) +
                C ((k3 : K) + k4 * v) * toPoly (B.getD i []))) ∧
          ∀ b : WithBot ℕ, (∀ f ∈ P ++ D ++ B, (toPoly f).degree ≤ b) → (toPoly l).degree ≤ b := by
  obtain ⟨k1, k2, k3, k4, hk⟩ := ks_four blake entropy
  obtain ⟨ks, e1, e2, -⟩ := (C38_pseudorandom_ks blake hb entropy width).1 (by omega) (by omega)
  have e2' : ks.length = width := by exact_mod_cast e2
  refine ⟨k1, k2, k3, k4, ks, hk, e1, e2', fun P D B hP hD hB => ?_⟩
  obtain ⟨l, l1, l2, l3⟩ := (combination_spec blake entropy P D B G deg steps width hP hD hB hd h0).1 k1 k2 k3 k4 ks hk e1 e2'
  have l4 : toPoly l = ∑ i ∈ Finset.range width, C (1 + (ks.getD i 0 : K) * (G ^ steps) ^ (deg - 1)) *
              (toPoly (D.getD i []) + C ((k1 : K) + k2 * (G ^ steps) ^ (deg - 1)) * toPoly (P.getD i []) +
                C ((k3 : K) + k4 * (G ^ steps) ^ (deg - 1)) * toPoly (B.getD i [])) := by
    rw [l3, Finset.sum_eq_multiset_sum]
    rfl
  refine ⟨l, l1, l2, l4, fun b hbd => ?_⟩
  have hmem : ∀ (L : List (List K)), L.length = width → (∀ f ∈ L, f ∈ P ++ D ++ B) → ∀ i, i < width →
      (toPoly (L.getD i [])).degree ≤ b := by
    intro L hL hsub i hi
    apply hbd
    apply hsub
    rw [List.getD_eq_getElem?_getD, List.getElem?_eq_getElem (by omega)]
    exact List.getElem_mem _
  rw [l4]
  refine (Polynomial.degree_sum_le _ _).trans (Finset.sup_le fun i hi => ?_)
  have hi := Finset.mem_range.1 hi
  have hC : ∀ (c : K) (f : K[X]), f.degree ≤ b → (C c * f).degree ≤ b := fun c f hf => by
    rcases eq_or_ne c 0 with rfl | hc
    · simp
    · rwa [Polynomial.degree_C_mul hc]
  apply hC
  refine (Polynomial.degree_add_le _ _).trans (max_le ((Polynomial.degree_add_le _ _).trans (max_le ?_ ?_)) ?_)
  · exact hmem D hD (by simp +contextual) i hi
  · exact hC _ _ (hmem P hP (by simp +contextual) i hi)
  · exact hC _ _ (hmem B hB (by simp +contextual) i hi)

/-- **C52** fails for ten or more columns: `TypeError`. -/
theorem C52_combination_refuted (blake : Bytes → Bytes) (hb : ∀ x, (blake x).length = 32) (entropy : Bytes) (width : Nat)
    (h10 : 10 ≤ width) (G : K) (deg steps : Nat) (hd : 2 ≤ deg) (P D B : List (List K)) (hP : P.length = width)
    (hD : D.length = width) (hB : B.length = width) : combination blake entropy P D B G deg steps width = .error .typeError :=
  (combination_spec blake entropy P D B G deg steps width hP hD hB hd (by omega)).2
    ((C38_pseudorandom_ks blake hb entropy width).2 (by exact_mod_cast h10))

example (blake : Bytes → Bytes) (hb : ∀ x, (blake x).length = 32) : combination blake [1] (List.replicate 10 [1, 1]) (List.replicate 10 [1])
    (List.replicate 10 [2]) (Zp.ofInt 7 : Zp 17) 2 4 10 = .error .typeError :=
  C52_combination_refuted blake hb [1] 10 le_rfl _ 2 4 le_rfl _ _ _ rfl rfl rfl

/-- **C73**. Over a field of odd characteristic `p`, with `steps ≥ 2`, `extension_factor ≥ 1` and `steps * extension_factor` dividing
`p - 1`, the constructor returns exactly if `7 ^ ((p-1) / precision)` has order `precision` (and raises `IndexError` otherwise, or
never returns in the case of characteristic 7); then `G2` has order `precision`, `G1` has order `steps`, and the last step position
is `G1^(steps-1)`. -/
theorem C73_parameters_partial (p : Nat) (hp2 : p ≠ 2) (hcar : (7 : K) ^ (p - 1) = 1 ∨ (7 : K) = 0) (hp : 1 < p) (steps ext : Nat)
    (hs : 2 ≤ steps) (he : 1 ≤ ext) (hdvd : steps * ext ∣ p - 1) (width n : Nat) (polys : List (Dict K)) (factor : Nat) :
    (HasOrder ((7 : K) ^ ((p - 1) / (steps * ext))) (steps * ext) →
      ∃ N, ∀ fuel ≥ N, ∃ S, mkStark fuel p steps ext width n polys factor = .ok S ∧
        S.steps = steps ∧ S.ext = ext ∧ S.width = width ∧ S.n = n ∧ S.polys = polys ∧ S.factor = factor ∧ S.p = p ∧
        S.precision = steps * ext ∧ S.G2 = (7 : K) ^ ((p - 1) / (steps * ext)) ∧ S.G1 = S.G2 ^ ext ∧
        HasOrder S.G2 (steps * ext) ∧ HasOrder S.G1 steps ∧ S.last = S.G1 ^ (steps - 1)) ∧
    (¬ HasOrder ((7 : K) ^ ((p - 1) / (steps * ext))) (steps * ext) →
      ((7 : K) ≠ 0 → ∃ N, ∀ fuel ≥ N, mkStark (K := K) fuel p steps ext width n polys factor = .error .indexError) ∧
      ((7 : K) = 0 → ∀ fuel, mkStark (K := K) fuel p steps ext width n polys factor = .error .diverge)) := by
  have h0 : steps * ext ≠ 0 := Nat.mul_ne_zero (by omega) (by omega)
  set G := (7 : K) ^ ((p - 1) / (steps * ext)) with hG
  have hmk : ∀ fuel, mkStark (K := K) fuel p steps ext width n polys factor = (do
      let xs ← Utils.getPowerCycle fuel G
      let last ← pyIdx xs ((steps - 1) * ext)
      .ok { p, steps, ext, width, n, polys, factor, G2 := G, G1 := G ^ ext, last }) := by
    intro fuel
    rw [mkStark, if_neg hp2, if_neg h0]
  have hlt : (steps - 1) * ext < steps * ext := Nat.mul_lt_mul_of_pos_right (by omega) (by omega)
  constructor
  · intro ho
    refine ⟨orderOf G, fun fuel hf => ?_⟩
    have hoe : orderOf G = steps * ext := ho.eq
    have hcyc := Utils.getPowerCycle_ok G (by omega) fuel (by omega)
    have hidx : pyIdx ((List.range (orderOf G)).map (G ^ ·)) ((steps - 1) * ext) = .ok (G ^ ((steps - 1) * ext)) := by
      rw [pyIdx_iff]
      simp [hoe, hlt]
    refine ⟨_, by rw [hmk, hcyc]; simp only [bind, Except.bind, hidx]; rfl, rfl, rfl, rfl, rfl, rfl, rfl, rfl, rfl, rfl, rfl, ho, ?_, ?_⟩
    · refine ⟨by omega, ?_, fun j hj1 hj2 => ?_⟩
      · change (G ^ ext) ^ steps = 1
        rw [← pow_mul, mul_comm, ho.2.1]
      · change (G ^ ext) ^ j ≠ 1
        rw [← pow_mul]
        exact ho.2.2 _ (Nat.mul_pos he hj1) (by rw [mul_comm]; exact Nat.mul_lt_mul_of_pos_right hj2 he)
    · change G ^ ((steps - 1) * ext) = (G ^ ext) ^ (steps - 1)
      rw [← pow_mul G, mul_comm ext]
  · intro ho
    constructor
    · intro h7
      have h1 : G ^ (steps * ext) = 1 := by
        rw [hG, ← pow_mul, Nat.div_mul_cancel hdvd]
        exact hcar.resolve_right h7
      have hod : orderOf G ∣ steps * ext := orderOf_dvd_of_pow_eq_one h1
      have hne : orderOf G ≠ steps * ext := by
        intro h
        refine ho ⟨by omega, h1, fun j hj1 hj2 h => ?_⟩
        have := Nat.le_of_dvd hj1 (orderOf_dvd_of_pow_eq_one h)
        omega
      have hpos : 0 < orderOf G := Nat.pos_of_dvd_of_pos hod (by omega)
      have hle : orderOf G ≤ (steps - 1) * ext := by
        obtain ⟨m, hm⟩ := hod
        have : 2 ≤ m := by
          rcases m with _ | _ | m
          · omega
          · simp at hm; omega
          · omega
        have h3 : orderOf G * 2 ≤ steps * ext := hm ▸ Nat.mul_le_mul_left _ this
        have h4 : steps * ext = (steps - 1) * ext + ext := by
          conv_lhs => rw [show steps = steps - 1 + 1 by omega, Nat.add_mul, one_mul]
        have h5 : ext ≤ (steps - 1) * ext := Nat.le_mul_of_pos_left _ (by omega)
        omega
      refine ⟨orderOf G, fun fuel hf => ?_⟩
      have hidx : pyIdx ((List.range (orderOf G)).map (G ^ ·)) ((steps - 1) * ext) = .error .indexError := by
        rw [pyIdx, List.getElem?_eq_none (by simpa using hle)]
      rw [hmk, Utils.getPowerCycle_ok G (by omega) fuel (by omega)]
      simp only [bind, Except.bind, hidx]
    · intro h7 fuel
      have hG0 : G = 0 := by
        rw [hG, h7, zero_pow]
        exact (Nat.div_pos (Nat.le_of_dvd (by omega) hdvd) (by omega)).ne'
      have : orderOf G = 0 := by
        rw [orderOf_eq_zero_iff']
        intro j hj
        rw [hG0, zero_pow hj.ne']
        exact zero_ne_one
      rw [hmk, Utils.getPowerCycle_div G this]
      rfl

end

/-- **C73** over `ℤ/p` itself: `7^(p-1) = 1` unless `p = 7`, so the hypothesis of `C73_parameters_partial` holds. -/
theorem C73_modp (p : Nat) [Fact p.Prime] : (7 : Zp p) ^ (p - 1) = 1 ∨ (7 : Zp p) = 0 := by
  by_cases h : (7 : Zp p) = 0
  · exact .inr h
  · left
    have h1 : Zp.equivZMod (7 : Zp p) ≠ 0 := by
      rw [Ne, map_eq_zero_iff _ (Zp.equivZMod (p := p)).injective]
      exact h
    have := ZMod.pow_card_sub_one_eq_one h1
    apply (Zp.equivZMod (p := p)).injective
    rw [map_pow, this, map_one]

/-- **C73** fails when `precision` does not divide `p - 1`: modulo 17 with 3 steps and extension factor 2 the constructor returns
an object whose `G2` does not satisfy `x^precision = 1` and whose `G1` does not satisfy `x^steps = 1`. -/
theorem C73_parameters_refuted :
    ∃ S, mkStark (K := Zp 17) 100 17 3 2 1 1 [] 80 = .ok S ∧ S.G2 ^ S.precision ≠ 1 ∧ S.G1 ^ S.steps ≠ 1 :=
  ⟨_, rfl, by decide +kernel, by decide +kernel⟩

/-- A case of `C48_zero_step_refuted`: the all-zero execution of the zero step polynomial modulo 17. -/
theorem C48_remainder_refuted : ∃ (W : List (List (Zp 17))) (g : Zp 17) (polys : List (Dict (Zp 17))) (P : _) (cps : _),
    HasOrder g 4 ∧ (∀ f ∈ polys, Mv.WF 1 f) ∧ W.length = 1 ∧ (∀ col ∈ W, col.length = 4) ∧
    (∀ i, i + 1 < 4 → IsStep 1 1 polys (wrow W i) (wrow W (i + 1))) ∧
    tracePolys 10 17 g W = .ok P ∧ constraintPolys 1 polys P g = .ok cps ∧
    remainderPolys cps 4 (g ^ 3) = .error .typeError := by
  refine ⟨[[0, 0, 0, 0]], Zp.ofInt 4, [[]], [[]], [.elt 0], ⟨by decide, by decide +kernel, fun j h1 h2 => ?_⟩, ?_, rfl, by simp, ?_,
    by decide +kernel, by decide +kernel, by decide +kernel⟩
  · interval_cases j <;> decide +kernel
  · simp only [List.mem_singleton, forall_eq]
    exact ⟨by simp, by simp, by simp⟩
  · intro i hi'
    have hi : i < 3 := by omega
    refine ⟨rfl, fun j hj => ⟨[], ?_, 0, ?_, ?_⟩⟩
    · interval_cases j; rfl
    · interval_cases j; clear hi'; interval_cases i <;> rfl
    · clear hi'; interval_cases i <;> rfl

/-! ### A concrete case: four steps of `x ↦ x² + 1` modulo 17, from 1 -/

def sqStep : List (Dict (Zp 17)) := [[([0], 1), ([2], 1)]]
def sqW : List (List (Zp 17)) := [[1, 2, 5, 9]]
def sqB : List (Nat × Nat × Zp 17) := [(0, 0, 1)]
def sqHash (s : Bytes) : Bytes := beDigits 32 (fromBytes s * 31 + s.length + 7 * (fromBytes s % 65537) ^ 5)

theorem sqHash_length (s : Bytes) : (sqHash s).length = 32 := beDigits_length _ _

theorem sq_wf : ∀ f ∈ sqStep, Mv.WF 1 f := by
  simp only [sqStep, List.mem_singleton, forall_eq]
  exact ⟨by decide, by decide +kernel, by decide⟩

theorem sq_order : HasOrder (Zp.ofInt 4 : Zp 17) 4 := by
  refine ⟨by norm_num, by decide +kernel, fun j h1 h2 => ?_⟩
  interval_cases j <;> decide +kernel

theorem sq_execution : IsExecution 1 4 sqStep sqB sqW := by
  refine ⟨rfl, by simp [sqW], ?_, ?_⟩
  · intro i hi
    rw [← nextState_iff]
    have hi' : i < 3 := by omega
    interval_cases i <;> decide +kernel
  · intro d col h
    match d, h with
    | 0, h => simp [sqW] at h; subst h; exact ⟨0, 0, 1, rfl, rfl⟩

/-- The hypotheses of C47, C48, C49 and C52 hold, and the values are as claimed. This meets the hypotheses of `C47_trace_polynomials`, `C47_short_columns`, `C48_remainder_partial`, `C49_boundary_partial`, `C52_combination_partial`. -/
example : 4 = 2 ^ 2 ∧ HasOrder (Zp.ofInt 4 : Zp 17) 4 ∧ (∀ f ∈ sqStep, Mv.WF 1 f) ∧ (∀ f ∈ sqStep, f ≠ []) ∧ sqW.length = 1 ∧
    (∀ col ∈ sqW, col.length = 4) ∧ (∀ i, i + 1 < 4 → IsStep 1 1 sqStep (wrow sqW i) (wrow sqW (i + 1))) ∧
    (∀ col ∈ sqW, ∀ out, col.getLast? = some out → out ≠ 0) ∧ ∀ x, (sqHash x).length = 32 :=
  ⟨rfl, sq_order, sq_wf, by simp [sqStep], rfl, by simp [sqW], sq_execution.step, by
    simp only [sqW, List.mem_singleton, forall_eq]
    intro out h
    simp at h
    subst h
    decide +kernel, sqHash_length⟩

example : (do
    let P ← tracePolys 10 17 (Zp.ofInt 4 : Zp 17) sqW
    let cps ← constraintPolys 1 sqStep P (Zp.ofInt 4)
    let D ← remainderPolys cps 4 (Zp.ofInt 4 ^ 3)
    let B ← boundaryPolys P sqW sqB (Zp.ofInt 4 ^ 3) 1
    let l ← combination sqHash [1, 2, 3] P D B (Zp.ofInt 7) 16 4 1
    .ok (P.map List.length, D.map List.length, B.map List.length, l.isSome) : Py _) = .ok ([4], [4], [2], true) := by
  decide +kernel

/-- `C48_zero_step_refuted`: the step to zero, run from zero. -/
example : ∃ N, ∀ fuel ≥ N, ∃ P cps, tracePolys fuel 17 (Zp.ofInt 4 : Zp 17) [[0, 0, 0, 0]] = .ok P ∧
    constraintPolys 1 [[]] P (Zp.ofInt 4) = .ok cps ∧ remainderPolys cps 4 (Zp.ofInt 4 ^ 3) = .error .typeError :=
  C48_zero_step_refuted 17 _ 4 2 (.inl rfl) sq_order 1 [[]] (by intro f h; obtain rfl := List.mem_singleton.1 h; exact ⟨List.Pairwise.nil, by simp, by simp⟩) le_rfl _ rfl (by simp)
    (by
      intro i hi
      refine ⟨rfl, fun j hj => ?_⟩
      obtain rfl : j = 0 := by omega
      refine ⟨[], rfl, 0, ?_, rfl⟩
      have hi' : i < 3 := by omega
      interval_cases i <;> rfl) 0 0 rfl rfl

/-- The other branch of C48: a witness that is not an execution. -/
example : (do
    let P ← tracePolys 10 17 (Zp.ofInt 4 : Zp 17) [[1, 2, 5, 10]]
    let cps ← constraintPolys 1 sqStep P (Zp.ofInt 4)
    remainderPolys cps 4 (Zp.ofInt 4 ^ 3)) = .error .assertion := by decide +kernel

/-- C47, the other sizes: 3 has order 5 modulo 11. This meets the hypotheses of `C47_other_sizes`. -/
example : HasOrder (Zp.ofInt 3 : Zp 11) 5 ∧ (∀ k : Nat, 5 ≠ 2 ^ k ∧ 5 ≠ 3 * 2 ^ k) ∧
    tracePolys 100 11 (Zp.ofInt 3 : Zp 11) [[1, 2, 3, 4, 5]] = .error .indexError := by
  refine ⟨⟨by norm_num, by decide +kernel, fun j h1 h2 => ?_⟩, fun k => ?_, by decide +kernel⟩
  · interval_cases j <;> decide +kernel
  · by_cases hk : k < 3
    · interval_cases k <;> decide
    · have : 2 ^ 3 ≤ 2 ^ k := Nat.pow_le_pow_right (by norm_num) (by omega)
      constructor <;> omega

/-- C49, the refuted case. This meets the hypotheses of `C49_boundary_refuted`. -/
example : boundaryPolys (K := Zp 17) [[0, 1]] [[1, 0]] [(0, 0, 1)] (Zp.ofInt 4) 1 = .error .indexError := by decide +kernel

/-- C73: the constructor modulo 17 with 4 steps and extension factor 4. This meets the hypotheses of `C73_parameters_partial`. -/
example : (17 : Nat) ≠ 2 ∧ 4 * 4 ∣ 17 - 1 ∧ ∃ S, mkStark (K := Zp 17) 100 17 4 4 1 1 sqStep 80 = .ok S ∧ S.G2 = Zp.ofInt 7 ∧
    S.G1 = Zp.ofInt 4 ∧ S.last = Zp.ofInt 13 :=
  ⟨by decide, by decide, _, rfl, by decide +kernel, by decide +kernel, by decide +kernel⟩

end Verif.Props
