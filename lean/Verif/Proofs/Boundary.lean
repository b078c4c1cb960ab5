import Verif.Spec.Boundary
import Verif.Props.StarkProtocol
/-!
# What the prover and the verifier read of the boundary constraints
-/

namespace Verif.Stark
open Poly Air PolyUtils
open scoped Polynomial
open Polynomial (C X)
open Mv (Dict toMv)

theorem firstValues_iff {K : Type _} {width : Nat} {b b' : List (Nat × Nat × K)} : firstValues width b = firstValues width b' ↔
    ∀ d, d < width → (b[d]?).map (fun con => con.2.2) = (b'[d]?).map (fun con => con.2.2) := by
  simp [firstValues, List.map_inj_left]

theorem pyMap_congr {α β : Type _} {f g : α → Py β} : ∀ {l : List α}, (∀ a ∈ l, f a = g a) → pyMap f l = pyMap g l
  | [], _ => rfl
  | a :: l, h => by
    simp only [pyMap]
    rw [h a (by simp), pyMap_congr fun b hb => h b (by simp [hb])]

theorem pyIdx_bind {α β γ : Type _} {l l' : List α} {d : Nat} {g : α → γ} (k : γ → Py β) (h : (l[d]?).map g = (l'[d]?).map g) :
    (pyIdx l d >>= fun a => k (g a)) = (pyIdx l' d >>= fun a => k (g a)) := by
  unfold pyIdx
  cases h1 : l[d]? <;> cases h2 : l'[d]? <;> simp_all [bind, Except.bind]

theorem boundaryPolys_congr {K : Type _} [Field K] [DecidableEq K] {P W : List (List K)} {b b' : List (Nat × Nat × K)} {last : K}
    {width : Nat} (h : firstValues width b = firstValues width b') : boundaryPolys P W b last width = boundaryPolys P W b' last width := by
  unfold boundaryPolys
  rw [pyMap_congr (g := interpolant W b' last)]
  intro d hd
  exact pyIdx_bind (g := fun con : Nat × Nat × K => con.2.2)
    (fun v => do
      let row ← pyIdx W d
      let out ← pyLast row
      lagrangeInterp2 (ctor [1, last]) (ctor [v, out])) (firstValues_iff.1 h d (List.mem_range.1 hd))

variable {p : Nat} [Fact p.Prime] {φ : Type}

theorem mkProof_congr (fuel : Nat) (blake : Bytes → Bytes) (friProve : List (Zp p) → Zp p → Nat → Nat → Py φ) (S : Params (Zp p))
    (W : List (List (Zp p))) {b b' : List (Nat × Nat × Zp p)} (h : firstValues S.width b = firstValues S.width b') :
    mkProof fuel blake friProve S W b = mkProof fuel blake friProve S W b' := by
  unfold mkProof
  simp only [boundaryPolys_congr h]

theorem verifyAt_congr (blake : Bytes → Bytes) (S : Params (Zp p)) (W : List (List (Zp p))) {b b' : List (Nat × Nat × Zp p)}
    (h : firstValues S.width b = firstValues S.width b') (pr : Proof φ) (i pos : Nat) :
    verifyAt blake S W b pr i pos = verifyAt blake S W b' pr i pos := by
  have : ∀ x P B, pyMap (checkBoundary W b S.last x P B) (List.range S.width) = pyMap (checkBoundary W b' S.last x P B) (List.range S.width) := by
    intro x P B
    apply pyMap_congr
    intro d hd
    exact pyIdx_bind (g := fun con : Nat × Nat × Zp p => con.2.2)
      (fun v => do
        let row ← pyIdx W d
        let out ← pyLast row
        let i ← lagrangeInterp2 [1, S.last] [v, out]
        let a ← pyIdx P d
        let b ← pyIdx B d
        pyAssert (decide (a - b * call (zeroPoly2 S.last) x - call i x = 0))) (firstValues_iff.1 h d (List.mem_range.1 hd))
  unfold verifyAt
  simp only [this]

theorem verifyProof_congr (blake : Bytes → Bytes) (friVerify : φ → Bytes → Zp p → Nat → Nat → Py Bool) (S : Params (Zp p))
    (W : List (List (Zp p))) {b b' : List (Nat × Nat × Zp p)} (h : firstValues S.width b = firstValues S.width b') (pr : Proof φ) :
    verifyProof blake friVerify S W b pr = verifyProof blake friVerify S W b' pr := by
  unfold verifyProof
  simp only [verifyAt_congr blake S W h]

/-- A line is determined by its values at two points. -/
theorem line_unique {K : Type _} [Field K] {I J : K[X]} (hI : I.degree ≤ 1) (hJ : J.degree ≤ 1) {x y : K} (hxy : x ≠ y)
    (h1 : I.eval x = J.eval x) (h2 : I.eval y = J.eval y) : I = J := by
  classical
  refine Polynomial.eq_of_degree_sub_lt_of_eval_finset_eq {x, y} ?_ ?_
  · rw [Finset.card_pair hxy]
    exact lt_of_le_of_lt (Polynomial.degree_sub_le _ _) (lt_of_le_of_lt (max_le hI hJ) (by norm_num))
  · intro z hz
    simp only [Finset.mem_insert, Finset.mem_singleton] at hz
    rcases hz with rfl | rfl
    · exact h1
    · exact h2

/-- The checks at one position, passed with two lists of constraints: the values read are the same. -/
theorem verifyAt_values (blake : Bytes → Bytes) (S : Params (Zp p)) (W : List (List (Zp p))) {b b' : List (Nat × Nat × Zp p)}
    (pr : Proof φ) (i pos : Nat) (hl : S.last ≠ 1) (h : verifyAt blake S W b pr i pos = .ok ())
    (h' : verifyAt blake S W b' pr i pos = .ok ()) : firstValues S.width b = firstValues S.width b' := by
  obtain ⟨br1, br2, br3, leaf1, leaf2, leaf3, a1, a2, a3, a4, a5, a6, a7, -, a8⟩ := (verifyAt_iff _ _ _ _ _ _ _ hl).1 h
  obtain ⟨br1', br2', br3', leaf1', leaf2', leaf3', c1, c2, c3, c4, c5, c6, c7, -, c8⟩ := (verifyAt_iff _ _ _ _ _ _ _ hl).1 h'
  rw [a1] at c1
  cases c1
  rw [a4] at c4
  cases c4
  rw [firstValues_iff]
  intro d hd
  obtain ⟨i1, j1, inp, col, out, e1, e2, e3, I, e4, e5, e6, e7⟩ := a8 d hd
  obtain ⟨i1', j1', inp', col', out', f1, f2, f3, J, f4, f5, f6, f7⟩ := c8 d hd
  rw [e2] at f2
  cases f2
  rw [e3] at f3
  cases f3
  have hx : I.eval (S.G2 ^ pos) = J.eval (S.G2 ^ pos) := by
    rw [e7] at f7
    exact add_right_cancel f7
  have hIJ := line_unique e4 f4 a7 hx (e6.trans f6.symm)
  rw [e1, f1]
  simp only [Option.map_some, Option.some.injEq]
  rw [← e5, ← f5, hIJ]

theorem lastEntries_iff {K : Type _} {width : Nat} {W W' : List (List K)} : lastEntries width W = lastEntries width W' ↔
    ∀ d, d < width → ((W[d]?).bind fun col => col.getLast?) = (W'[d]?).bind fun col => col.getLast? := by
  simp [lastEntries, List.map_inj_left]

/-- What the checks at one position say of the statement: the line through input and output has a given value there. -/
theorem verifyAt_lines (blake : Bytes → Bytes) (S : Params (Zp p)) (W W' : List (List (Zp p))) (b b' : List (Nat × Nat × Zp p))
    (pr : Proof φ) (i pos : Nat) (hl : S.last ≠ 1) (h : verifyAt blake S W b pr i pos = .ok ()) :
    S.G2 ^ pos ≠ S.last ∧ (verifyAt blake S W' b' pr i pos = .ok () ↔ ∀ d, d < S.width → ∃ inp out inp' out',
      (b[d]?).map (fun con => con.2.2) = some inp ∧ ((W[d]?).bind fun col => col.getLast?) = some out ∧
      (b'[d]?).map (fun con => con.2.2) = some inp' ∧ ((W'[d]?).bind fun col => col.getLast?) = some out' ∧
      ∃ I J : (Zp p)[X], I.degree ≤ 1 ∧ I.eval 1 = inp ∧ I.eval S.last = out ∧ J.degree ≤ 1 ∧ J.eval 1 = inp' ∧ J.eval S.last = out' ∧
        I.eval (S.G2 ^ pos) = J.eval (S.G2 ^ pos)) := by
  obtain ⟨br1, br2, br3, leaf1, leaf2, leaf3, a1, a2, a3, a4, a5, a6, a7, a9, a8⟩ := (verifyAt_iff _ _ _ _ _ _ _ hl).1 h
  refine ⟨a7, fun h' => ?_, fun h' => ?_⟩
  · obtain ⟨br1', br2', br3', leaf1', leaf2', leaf3', c1, c2, c3, c4, c5, c6, c7, -, c8⟩ := (verifyAt_iff _ _ _ _ _ _ _ hl).1 h'
    rw [a1] at c1
    cases c1
    rw [a4] at c4
    cases c4
    intro d hd
    obtain ⟨i1, j1, inp, col, out, e1, e2, e3, I, e4, e5, e6, e7⟩ := a8 d hd
    obtain ⟨i1', j1', inp', col', out', f1, f2, f3, J, f4, f5, f6, f7⟩ := c8 d hd
    refine ⟨inp, out, inp', out', by rw [e1]; rfl, by rw [e2]; exact e3, by rw [f1]; rfl, by rw [f2]; exact f3, I, J, e4, e5, e6, f4, f5, f6, ?_⟩
    rw [e7] at f7
    exact add_right_cancel f7
  · refine (verifyAt_iff _ _ _ _ _ _ _ hl).2 ⟨br1, br2, br3, leaf1, leaf2, leaf3, a1, a2, a3, a4, a5, a6, a7, a9, fun d hd => ?_⟩
    obtain ⟨i1, j1, inp0, col0, out0, e1, e2, e3, I0, e4, e5, e6, e7⟩ := a8 d hd
    obtain ⟨inp, out, inp', out', f1, f2, f3, f4, I, J, g1, g2, g3, g4, g5, g6, g7⟩ := h' d hd
    rw [e1] at f1
    rw [e2] at f2
    simp only [Option.map_some, Option.some.injEq, Option.bind_some] at f1 f2
    rw [e3] at f2
    cases f1
    cases f2
    have hI : I0 = I := line_unique e4 g1 hl.symm (e5.trans g2.symm) (e6.trans g3.symm)
    subst hI
    cases hb : b'[d]? with
    | none => rw [hb] at f3; simp at f3
    | some con =>
      cases hw : W'[d]? with
      | none => rw [hw] at f4; simp at f4
      | some col =>
        rw [hb] at f3
        rw [hw] at f4
        simp only [Option.map_some, Option.some.injEq, Option.bind_some] at f3 f4
        exact ⟨con.1, con.2.1, inp', col, out', by rw [← f3], rfl, f4, J, g4, g5, g6, by rw [e7, g7]⟩

/-- A proof made with constraints whose first values are not the inputs fails at every sampled position. -/
theorem wrong_input (blake : Bytes → Bytes) (hbl : ∀ x, (blake x).length = 32) (hp : p ≤ 2 ^ 256) (S : Params (Zp p)) (hSp : S.p = p)
    (a b : Nat) (hst : S.steps = 2 ^ a) (hex : S.ext = 2 ^ b) (ha : 1 ≤ a) (hb1 : 1 ≤ b) (hab : a + b < 24)
    (hG2 : orderOf S.G2 = S.steps * S.ext) (hG1 : S.G1 = S.G2 ^ S.ext) (hlast : S.last = S.G1 ^ (S.steps - 1))
    (hn : S.n = S.width) (hw0 : 0 < S.width)
    (hw : ∀ f ∈ S.polys, Mv.WF S.width f) (hpl : S.width ≤ S.polys.length)
    (hdeg : ∀ f ∈ S.polys, (toMv S.width f).totalDegree ≤ S.ext + 1)
    {W : List (List (Zp p))} (hWl : W.length = S.width) (hW : ∀ col ∈ W, col.length = S.steps)
    (hvalid : ∀ i, i + 1 < S.steps → IsStep S.width S.width S.polys (wrow W i) (wrow W (i + 1)))
    {boundary : List (Nat × Nat × Zp p)}
    (hb : ∀ (d : Nat) (col : List (Zp p)), W[d]? = some col → ∃ i j inp, boundary[d]? = some (i, j, inp) ∧ col.head? = some inp)
    (hout : ∀ col ∈ W, ∀ out, col.getLast? = some out → out ≠ 0)
    {boundary' : List (Nat × Nat × Zp p)} (hne : firstValues S.width boundary' ≠ firstValues S.width boundary)
    (friProve : List (Zp p) → Zp p → Nat → Nat → Py φ) (fuel : Nat) (hf : S.steps * S.ext ≤ fuel) (pr : Proof φ)
    (hpr : mkProof fuel blake friProve S W boundary' = .ok pr) (positions : List Int)
    (hps : Utils.getPseudorandomIndices blake pr.lRoot S.precision (80 : Nat) S.ext = .ok positions) (k : Nat) (pos : Int)
    (hpos : positions[k]? = some pos) : verifyAt blake S W boundary' pr k pos.toNat ≠ .ok () := by
  intro hat
  have hchar : CharP (Zp p) p := Props.charP_zp p
  have hpow : S.steps * S.ext = 2 ^ (a + b) := by rw [hst, hex, pow_add]
  have h2s : 2 ≤ S.steps := by rw [hst]; calc 2 = 2 ^ 1 := rfl
    _ ≤ 2 ^ a := Nat.pow_le_pow_right (by omega) ha
  have h2e : 2 ≤ S.ext := by rw [hex]; calc 2 = 2 ^ 1 := rfl
    _ ≤ 2 ^ b := Nat.pow_le_pow_right (by omega) hb1
  have hse : S.steps ≤ S.steps * S.ext := Nat.le_mul_of_pos_right _ (by omega)
  have hg1 : orderOf S.G1 = S.steps := by
    rw [hG1, orderOf_pow' _ (by omega), hG2, Nat.gcd_eq_right (Nat.dvd_mul_left _ _), Nat.mul_div_cancel _ (by omega)]
  have hl1 : S.last ≠ 1 := by
    rw [hlast]
    intro h
    have := Nat.le_of_dvd (by omega) (orderOf_dvd_of_pow_eq_one h)
    omega
  have hl00 : S.last ≠ 0 := by
    rw [hlast]
    intro h
    have h1 : S.G1 = 0 := by
      by_contra h2
      exact pow_ne_zero _ h2 h
    have h2 := pow_orderOf_eq_one S.G1
    rw [hg1, h1, zero_pow (by omega)] at h2
    exact zero_ne_one h2
  obtain ⟨P, cps, D, B, p1, p2, p3, p4, pl, dl, bl, hQ, hd⟩ := honest_polys (p := p) (ext := S.ext) (.inl hst) hg1 h2s (by omega) hw hpl
    hdeg hWl hW hvalid hb hout fuel (by omega)
  -- the values read by the verifier exist
  obtain ⟨br1, br2, br3, leaf1, leaf2, leaf3, a1, a2, a3, a4, a5, a6, hxl, -, a8⟩ := (verifyAt_iff _ _ _ _ _ _ _ hl1).1 hat
  have hb' : ∀ d, d < S.width → ∃ i j, boundary'[d]? = some (i, j, ((boundary'[d]?).map fun con => con.2.2).getD 0) := by
    intro d hd'
    obtain ⟨i, j, inp, _, _, e1, -⟩ := a8 d hd'
    exact ⟨i, j, by rw [e1]; rfl⟩
  have hwit : ∀ d, d < S.width → ∃ col, W[d]? = some col ∧ col.getLast? = some ((W.getD d []).getLastD 0) := by
    intro d hd'
    obtain ⟨i, j, inp, col, out, -, e2, e3, -⟩ := a8 d hd'
    refine ⟨col, e2, ?_⟩
    rw [List.getD_eq_getElem?_getD, e2, Option.getD_some, List.getLastD_eq_getLast?, e3]
    rfl
  obtain ⟨B', q1, q2, q3⟩ := (boundary_spec (tr := P) (witness := W) (boundary := boundary') (last := S.last) hl00 hl1 pl
    (fun d => ((boundary'[d]?).map fun con => con.2.2).getD 0) (fun d => (W.getD d []).getLastD 0) hb' hwit).1 (by
      intro d hd'
      obtain ⟨col, e1, e2⟩ := hwit d hd'
      exact hout col (List.mem_of_getElem? e1) _ e2)
  have hgood : FFT.Good (S.steps * S.ext) := (FFT.good_iff _).2 ⟨a + b, .inl hpow⟩
  have hfft : ∀ f : List (Zp p), f.length ≤ S.steps * S.ext → FFT.nbFft fuel p S.G2 f = .ok (FFT.dft S.G2 (2 ^ (a + b)) f) := by
    intro f hfl
    rw [FFT.nbFft, FFT.fft1d_fwd hgood S.G2 hG2 p f hfl fuel hf, hpow]
  have hQ' : ∀ f ∈ P ++ D ++ B', f.length ≤ S.steps * S.ext := by
    intro f hfm
    rw [List.mem_append] at hfm
    rcases hfm with hfm | hfm
    · exact (hQ f (by rw [List.mem_append]; exact .inl hfm)).2
    · obtain ⟨d, hd', rfl⟩ := List.getElem_of_mem hfm
      have hdP : d < P.length := by omega
      obtain ⟨bq, I, e1, e2, e3, e4, -, -, e5, -⟩ := q3 d P[d] (by simp)
      rw [(List.getElem?_eq_some_iff.1 e1).2]
      have hPd := (hQ P[d] (by simp)).2
      apply length_le_of_canon e2
      intro i hi
      apply Polynomial.coeff_eq_zero_of_natDegree_lt
      rw [e5]
      have hZ : ((X - 1) * (X - C S.last) : (Zp p)[X]).Monic :=
        (by simpa using Polynomial.monic_X_sub_C (1 : Zp p) : (X - 1 : (Zp p)[X]).Monic).mul (Polynomial.monic_X_sub_C _)
      rw [← Polynomial.divByMonic_eq_div _ hZ, Polynomial.natDegree_divByMonic _ hZ]
      have h7 : (toPoly P[d] - toPoly I).natDegree ≤ S.steps * S.ext - 1 := by
        refine (Polynomial.natDegree_sub_le _ _).trans (max_le ?_ ?_)
        · exact natDegree_toPoly_le (by omega)
        · exact natDegree_toPoly_le (by omega)
      omega
  have hevals : pyMap (FFT.nbFft fuel p S.G2) (P ++ D ++ B') = .ok ((P ++ D ++ B').map (FFT.dft S.G2 (2 ^ (a + b)))) :=
    pyMap_ok _ _ _ fun f hf' => hfft f (hQ' f hf')
  obtain ⟨mtree, mRoot, m1, m2, m3⟩ := commit_spec blake hp (P ++ D ++ B') S.G2 S.width (a + b) (by omega) hw0
    (by simp [pl, dl, q2]; omega)
  simp only [mkProof] at hpr
  obtain ⟨P_, r1, cps_, r2, D_, r3, B_, r4, ev, r5, mt, r6, mR, r7, l, r8, hpr⟩ := by simpa only [bind_iff] using hpr
  rw [hSp, p1] at r1
  cases r1
  rw [hn, p2] at r2
  cases r2
  rw [hlast, p3] at r3
  cases r3
  rw [q1] at r4
  cases r4
  rw [hSp, hevals] at r5
  cases r5
  rw [m1] at r6
  cases r6
  rw [pyIdx_iff, m2] at r7
  cases r7
  cases l with
  | none => simp at hpr
  | some l =>
    obtain ⟨lev, s1, ltree, s2, brs, s3, lRoot, s4, deg, s5, fri, s6, s7⟩ := by simpa only [bind_iff] using hpr
    cases s7
    obtain ⟨root, t1, positions', t2, bs, t3, t4⟩ := by simpa only [spotChecks, bind_iff] using s3
    rw [s4] at t1
    cases t1
    cases t4
    have t5 := t2.symm.trans hps
    cases t5
    obtain ⟨bb, b1, b2⟩ := ((pyMap_iff _ _ _).1 t3).2 k pos hpos
    obtain ⟨br1', u1, br2', u2, br3', u3, u4⟩ := by simpa only [bind_iff] using b2
    cases u4
    have hb3 : ∀ b ∈ bs, b.length = 3 := by
      intro b hb
      obtain ⟨j, hj, rfl⟩ := List.getElem_of_mem hb
      have hlen := ((pyMap_iff _ _ _).1 t3).1
      obtain ⟨b', c1, c2⟩ := ((pyMap_iff _ _ _).1 t3).2 j (positions[j]'(by omega)) (by simp)
      rw [(List.getElem?_eq_some_iff.1 c1).2]
      simp only [bind_iff] at c2
      obtain ⟨_, -, _, -, _, -, c3⟩ := c2
      cases c3
      rfl
    have hprec : S.precision = 2 ^ (a + b) := hpow
    have hlt24 : S.precision < 2 ^ 24 := by rw [hprec]; exact Nat.pow_lt_pow_right (by omega) hab
    obtain ⟨o, o1, o2, o3⟩ := Props.C36_indices_exclude blake hbl lRoot S.precision 80 S.ext (by
        rw [show S.precision = S.steps * S.ext from rfl]; exact_mod_cast (by omega : 2 ≤ S.steps * S.ext))
      (by exact_mod_cast hlt24) (by exact_mod_cast h2e)
    have o4 := o1.symm.trans hps
    cases o4
    obtain ⟨z1, z2, z3⟩ := o3 pos (List.mem_of_getElem? hpos)
    have hx : pos.toNat < 2 ^ (a + b) := by rw [← hprec]; omega
    obtain ⟨br, leaf, w1, -, w2, w3⟩ := m3 _ hx
    rw [u1] at w1
    cases w1
    have d1' := (flatten3 bs hb3 k 0 _ (by omega) b1).symm.trans a1
    cases d1'
    have f1' := w2.symm.trans a4
    cases f1'
    apply hne
    rw [firstValues_iff]
    intro d hdd
    obtain ⟨i, j, inp', col, out, e1, e2, e3, J, e4, e5, e6, e7⟩ := a8 d hdd
    obtain ⟨Pd, Dd, Bd, f, col', i', j', inp, out', c1, c2, c3, c4, c5, c6, c7, -, I, c9, c10, c11, c12⟩ := hd d hdd
    rw [e2] at c5
    cases c5
    rw [e3] at c7
    cases c7
    obtain ⟨bq, I', g1, -, -, g4, g5, g6, g7, -⟩ := q3 d Pd c1
    rw [e1] at g5
    have hout' : (W.getD d []).getLastD 0 = out := by
      rw [List.getD_eq_getElem?_getD, e2, Option.getD_some, List.getLastD_eq_getLast?, e3]
      rfl
    rw [hout'] at g6
    have hI' : (toPoly I').degree ≤ 1 := Polynomial.degree_le_of_natDegree_le (natDegree_toPoly_le (by omega))
    have hJ : J = toPoly I' := line_unique e4 hI' hl1.symm (e5.trans g5.symm) (e6.trans g6.symm)
    have hx1 := w3 d Pd (by rw [List.append_assoc, List.getElem?_append_left (by omega)]; exact c1)
    have hx2 := w3 (2 * S.width + d) bq (by
      have e : 2 * S.width + d - (P ++ D).length = d := by rw [List.length_append]; omega
      rw [List.getElem?_append_right (by rw [List.length_append]; omega), e, g1])
    rw [hx1, hx2] at e7
    set Z : (Zp p)[X] := (X - 1) * (X - C S.last) with hZdef
    have hZm : Z.Monic :=
      (by simpa using Polynomial.monic_X_sub_C (1 : Zp p) : (X - 1 : (Zp p)[X]).Monic).mul (Polynomial.monic_X_sub_C _)
    set R := (toPoly Pd - toPoly I') % Z with hR
    have hdm : toPoly Pd - toPoly I' = Z * toPoly bq + R := by rw [g7, hR, EuclideanDomain.div_add_mod]
    have hZd : Z.degree = 2 := by
      rw [hZdef, Polynomial.degree_mul, Polynomial.degree_X_sub_C, show (X - 1 : (Zp p)[X]) = X - C 1 by simp,
        Polynomial.degree_X_sub_C]
      rfl
    have hRd : R.degree ≤ 1 := by
      have : R.degree < 2 := by
        rw [← hZd]
        exact Polynomial.degree_mod_lt _ hZm.ne_zero
      refine (Polynomial.degree_le_iff_coeff_zero _ _).2 fun m hm => Polynomial.coeff_eq_zero_of_degree_lt (lt_of_lt_of_le this ?_)
      have : 1 < m := by exact_mod_cast hm
      exact_mod_cast (by omega : 2 ≤ m)
    have hZx : ∀ y : Zp p, Z.eval y = (y - 1) * (y - S.last) := fun y => by simp [hZdef]
    have hev : ∀ y : Zp p, (toPoly Pd).eval y - (toPoly I').eval y = (y - 1) * (y - S.last) * (toPoly bq).eval y + R.eval y := by
      intro y
      have := congrArg (Polynomial.eval y) hdm
      simpa [hZx] using this
    rw [hJ] at e7
    have hRx : R.eval (S.G2 ^ pos.toNat) = 0 := by
      have := hev (S.G2 ^ pos.toNat)
      rw [e7] at this
      linear_combination -this
    have hRl : R.eval S.last = 0 := by
      have h8 := hev S.last
      have h9 := c12 S.last
      rw [← hlast] at c11 h9
      rw [h9, c11, g6] at h8
      linear_combination -h8
    have hR0 : R = 0 := line_unique hRd (by simp) hxl (by simpa using hRx) (by simpa using hRl)
    have h10 := hev 1
    rw [hR0, c12 1, c10, g5] at h10
    rw [e1, c6]
    simp only [Option.map_some, Option.some.injEq, Option.getD_some] at h10 ⊢
    simp only [sub_self, zero_mul, add_zero, Polynomial.eval_zero] at h10
    exact (sub_eq_zero.1 h10).symm

end Verif.Stark
