import Verif.Proofs.Stark
import Verif.Props.Merkle
import Verif.Props.Utils
import Verif.Props.FFT
import Verif.Props.Stark
/-!
# The STARK verifier and the spot checks of the prover
-/

set_option linter.unusedSectionVars false

namespace Verif.Stark
open Poly PolyUtils Air
open scoped Polynomial
open Polynomial (C X)
open Mv (Dict toMv)

section
variable {p : Nat} [Fact p.Prime] {φ : Type}

theorem unpack_eq (leaf : Bytes) (w : Nat) :
    (Merkle.unpackMerkleLeaf leaf w 3).map (dec (p := p)) = (List.range (3 * w)).map (blk leaf) := by
  unfold Merkle.unpackMerkleLeaf
  rw [Merkle.range_flatMap_map w 3 (fun i => (leaf.take (32 * (i + 1))).drop (32 * i)), List.map_map]
  apply List.map_congr_left
  intro i _
  simp only [Function.comp, blk, List.drop_take]
  congr 2
  omega

theorem fst_eq (leaf : Bytes) (w : Nat) :
    ((Merkle.unpackMerkleLeaf leaf w 3).take w).map (dec (p := p)) = (List.range w).map (blk leaf) := by
  rw [List.map_take, unpack_eq, ← List.map_take, List.take_range, Nat.min_eq_left (by omega)]

theorem snd_getElem (leaf : Bytes) (w d : Nat) (hd : d < w) :
    ((((Merkle.unpackMerkleLeaf leaf w 3).drop w).take w).map (dec (p := p)))[d]? = some (blk leaf (w + d)) := by
  rw [List.map_take, List.map_drop, unpack_eq, List.getElem?_take, if_pos hd, List.getElem?_drop, List.getElem?_map,
    List.getElem?_range (by omega)]
  rfl

theorem thd_getElem (leaf : Bytes) (w d : Nat) (hd : d < w) :
    (((Merkle.unpackMerkleLeaf leaf w 3).drop (2 * w)).map (dec (p := p)))[d]? = some (blk leaf (2 * w + d)) := by
  rw [List.map_drop, unpack_eq, List.getElem?_drop, List.getElem?_map, List.getElem?_range (by omega)]
  rfl

theorem fst_getElem (leaf : Bytes) (w d : Nat) (hd : d < w) :
    ((List.range w).map (blk (p := p) leaf))[d]? = some (blk leaf d) := by
  rw [List.getElem?_map, List.getElem?_range hd]
  rfl

theorem pyAssert_iff (b : Bool) (u : Unit) : pyAssert b = .ok u ↔ b = true := by
  cases b <;> simp [pyAssert]

theorem pyMap_unit_iff {k : Nat} {f : Nat → Py Unit} : (∃ r, pyMap f (List.range k) = .ok r) ↔ ∀ d, d < k → f d = .ok () := by
  constructor
  · rintro ⟨r, hr⟩ d hd
    obtain ⟨b, -, h⟩ := ((pyMap_range_iff _ _ _).1 hr).2 d hd
    exact h
  · intro h
    exact pyMap_all fun a ha => ⟨(), h a (List.mem_range.1 ha)⟩

theorem checkTransition_iff (leaf1 leaf2 : Bytes) (w : Nat) (fp : List (Zp p)) (z : Zp p) (d : Nat) (hd : d < w) :
    checkTransition ((List.range w).map (blk leaf2)) fp
      ((((Merkle.unpackMerkleLeaf leaf1 w 3).drop w).take w).map dec) z d = .ok () ↔
      ∃ v, fp[d]? = some v ∧ blk leaf2 d = v + z * blk leaf1 (w + d) := by
  simp only [checkTransition, bind_iff, pyIdx_iff, fst_getElem _ _ _ hd, snd_getElem _ _ _ hd, pyAssert_iff, Option.some.injEq,
    decide_eq_true_eq]
  constructor
  · rintro ⟨_, rfl, _, rfl, v, h1, h2⟩
    exact ⟨v, h1, by rw [← sub_eq_zero, ← h2]; ring⟩
  · rintro ⟨v, h1, h2⟩
    exact ⟨_, rfl, _, rfl, v, h1, by rw [h2]; ring⟩

theorem checkBoundary_iff (witness : List (List (Zp p))) (boundary : List (Nat × Nat × Zp p)) (last x : Zp p) (h1 : last ≠ 1)
    (leaf : Bytes) (w d : Nat) (hd : d < w) :
    checkBoundary witness boundary last x ((List.range w).map (blk leaf))
      (((Merkle.unpackMerkleLeaf leaf w 3).drop (2 * w)).map dec) d = .ok () ↔
      ∃ i j inp col out, boundary[d]? = some (i, j, inp) ∧ witness[d]? = some col ∧ col.getLast? = some out ∧
        ∃ I : (Zp p)[X], I.degree ≤ 1 ∧ I.eval 1 = inp ∧ I.eval last = out ∧
          blk leaf d = I.eval x + (x - 1) * (x - last) * blk leaf (2 * w + d) := by
  have hlast : ∀ (col : List (Zp p)) (out : Zp p), pyLast col = .ok out ↔ col.getLast? = some out := by
    intro col out
    unfold pyLast
    cases col.getLast? <;> simp
  have hz : call (zeroPoly2 last) x = (x - 1) * (x - last) := by
    rw [call_eq_eval, toPoly_zeroPoly2]
    simp
  simp only [checkBoundary, bind_iff, pyIdx_iff, fst_getElem _ _ _ hd, thd_getElem _ _ _ hd, pyAssert_iff, Option.some.injEq,
    decide_eq_true_eq, hlast, call_eq_eval (K := Zp p)] at hz ⊢
  constructor
  · rintro ⟨⟨i, j, inp⟩, e1, col, e2, out, e3, r, e4, _, rfl, _, rfl, e5⟩
    obtain ⟨r', f1, f2, f3, f4, f5⟩ := lagrangeInterp2_spec 1 last inp out h1.symm
    rw [f1] at e4
    cases e4
    refine ⟨i, j, inp, col, out, e1, e2, e3, toPoly r, Polynomial.degree_le_of_natDegree_le (natDegree_toPoly_le f3), f4, f5, ?_⟩
    rw [hz] at e5
    rw [← sub_eq_zero, ← e5]
    ring
  · rintro ⟨i, j, inp, col, out, e1, e2, e3, I, i1, i2, i3, i4⟩
    obtain ⟨r', f1, f2, f3, f4, f5⟩ := lagrangeInterp2_spec 1 last inp out h1.symm
    have hI : toPoly r' = I := by
      refine Polynomial.eq_of_degree_sub_lt_of_eval_finset_eq {1, last} ?_ ?_
      · have h2 : ({1, last} : Finset (Zp p)).card = 2 := Finset.card_pair h1.symm
        rw [h2]
        refine lt_of_le_of_lt (Polynomial.degree_sub_le _ _) (max_lt ?_ ?_)
        · exact lt_of_le_of_lt (Polynomial.degree_le_of_natDegree_le (natDegree_toPoly_le f3)) (by decide)
        · exact lt_of_le_of_lt i1 (by decide)
      · intro y hy
        simp only [Finset.mem_insert, Finset.mem_singleton] at hy
        rcases hy with rfl | rfl
        · rw [f4, i2]
        · rw [f5, i3]
    refine ⟨(i, j, inp), e1, col, e2, out, e3, r', f1, _, rfl, _, rfl, ?_⟩
    rw [hz, hI, i4]
    ring

/-- What the verifier checks at one position. -/
theorem verifyAt_iff (blake : Bytes → Bytes) (S : Params (Zp p)) (witness : List (List (Zp p))) (boundary : List (Nat × Nat × Zp p))
    (pr : Proof φ) (i pos : Nat) (h1 : S.last ≠ 1) :
    verifyAt blake S witness boundary pr i pos = .ok () ↔
      ∃ br1 br2 br3 leaf1 leaf2 leaf3, pr.branches[i * 3]? = some br1 ∧ pr.branches[i * 3 + 1]? = some br2 ∧
        pr.branches[i * 3 + 2]? = some br3 ∧ Merkle.verifyBranch blake pr.mRoot pos br1 = .ok leaf1 ∧
        Merkle.verifyBranch blake pr.mRoot ((pos + S.ext) % S.precision) br2 = .ok leaf2 ∧
        Merkle.verifyBranch blake pr.lRoot pos br3 = .ok leaf3 ∧ S.G2 ^ pos ≠ S.last ∧
        (∃ v, IsStep S.n S.width S.polys ((List.range S.width).map (blk leaf1)) v ∧ ∀ d, d < S.width → ∃ vd, v[d]? = some vd ∧
          blk leaf2 d = vd + ((S.G2 ^ pos) ^ S.steps - 1) / (S.G2 ^ pos - S.last) * blk leaf1 (S.width + d)) ∧
        ∀ d, d < S.width → ∃ i j inp col out, boundary[d]? = some (i, j, inp) ∧ witness[d]? = some col ∧ col.getLast? = some out ∧
          ∃ I : (Zp p)[X], I.degree ≤ 1 ∧ I.eval 1 = inp ∧ I.eval S.last = out ∧
            blk leaf1 d = I.eval (S.G2 ^ pos) + (S.G2 ^ pos - 1) * (S.G2 ^ pos - S.last) * blk leaf1 (2 * S.width + d) := by
  have hdiv : ∀ a b z : Zp p, pyDiv a b = .ok z ↔ b ≠ 0 ∧ z = a / b := by
    intro a b z
    unfold pyDiv
    by_cases hb : b = 0
    · simp [hb]
    · simp [hb, div_eq_mul_inv, eq_comm]
  simp only [verifyAt, bind_iff, pyIdx_iff, Merkle.verifyBranchInt, fst_eq, hdiv, nextState_iff]
  constructor
  · rintro ⟨br1, a1, leaf1, a2, br2, a3, leaf2, a4, br3, a5, l, ⟨leaf3, a6, -⟩, z, ⟨a7, rfl⟩, v, a8, r1, a9, r2, a10, -⟩
    refine ⟨br1, br2, br3, leaf1, leaf2, leaf3, a1, a3, a5, a2, a4, a6, sub_ne_zero.1 a7, ⟨v, a8, ?_⟩, ?_⟩
    · intro d hd
      exact (checkTransition_iff leaf1 leaf2 S.width v _ d hd).1 (pyMap_unit_iff.1 ⟨r1, a9⟩ d hd)
    · intro d hd
      exact (checkBoundary_iff witness boundary S.last _ h1 leaf1 S.width d hd).1 (pyMap_unit_iff.1 ⟨r2, a10⟩ d hd)
  · rintro ⟨br1, br2, br3, leaf1, leaf2, leaf3, a1, a3, a5, a2, a4, a6, a7, ⟨v, a8, a9⟩, a10⟩
    obtain ⟨r1, h2⟩ := pyMap_unit_iff.2 fun d hd =>
      (checkTransition_iff leaf1 leaf2 S.width v (((S.G2 ^ pos) ^ S.steps - 1) / (S.G2 ^ pos - S.last)) d hd).2 (a9 d hd)
    obtain ⟨r2, h3⟩ := pyMap_unit_iff.2 fun d hd =>
      (checkBoundary_iff witness boundary S.last (S.G2 ^ pos) h1 leaf1 S.width d hd).2 (a10 d hd)
    exact ⟨br1, a1, leaf1, a2, br2, a3, leaf2, a4, br3, a5, _, ⟨leaf3, a6, rfl⟩, _, ⟨sub_ne_zero.2 a7, rfl⟩, v, a8, r1, h2, r2, h3, trivial⟩

/-! ### The honest prover -/

/-- The 32 bytes of a field element. -/
def encB (a : Zp p) : Bytes := beDigits 32 a.1.toNat

theorem enc_eq (hp : p ≤ 2 ^ 256) (a : Zp p) : enc a = .ok (encB a) := by
  have h := a.2
  have : (a.1 : Int) < 256 ^ 32 := lt_of_lt_of_le h.2 (by
    calc (p : Int) ≤ ((2 ^ 256 : Nat) : Int) := by exact_mod_cast hp
      _ = 256 ^ 32 := by norm_num)
  unfold enc Modp.toBytes intToBytes
  rw [if_neg (by omega)]
  rfl

theorem encB_length (a : Zp p) : (encB a).length = 32 := beDigits_length 32 _

theorem dec_encB (hp : p ≤ 2 ^ 256) (a : Zp p) : dec (encB a) = a := by
  have h := a.2
  have : a.1.toNat < 256 ^ 32 := by
    have h1 : a.1.toNat < p := by omega
    calc a.1.toNat < p := h1
      _ ≤ 2 ^ 256 := hp
      _ = 256 ^ 32 := by norm_num
  rw [dec, encB, fromBytes_beDigits _ _ this, Int.toNat_of_nonneg h.1, Zp.ofInt_val]

theorem flatten3 {α : Type _} : ∀ (bs : List (List α)), (∀ b ∈ bs, b.length = 3) → ∀ (i j : Nat) (b : List α), j < 3 → bs[i]? = some b →
    bs.flatten[i * 3 + j]? = b[j]?
  | [], _, i, j, b, _, h => by simp at h
  | a :: bs, hl, 0, j, b, hj, h => by
    simp only [List.getElem?_cons_zero, Option.some.injEq] at h
    subst h
    rw [List.flatten_cons, List.getElem?_append_left (by rw [hl a (by simp)]; omega)]
    simp
  | a :: bs, hl, i + 1, j, b, hj, h => by
    have ha := hl a (by simp)
    rw [List.flatten_cons, List.getElem?_append_right (by rw [ha]; omega), ha,
      show (i + 1) * 3 + j - 3 = i * 3 + j by omega]
    exact flatten3 bs (fun b hb => hl b (by simp [hb])) i j b hj (by simpa using h)

/-- The commitment to the evaluations of `Q` on the powers of `G`: opening position `x` shows the values at `G^x`. -/
theorem flatten3_length {α : Type _} : ∀ (bs : List (List α)), (∀ b ∈ bs, b.length = 3) → bs.flatten.length = 3 * bs.length
  | [], _ => rfl
  | a :: bs, hl => by
    rw [List.flatten_cons, List.length_append, hl a (by simp), flatten3_length bs (fun b hb => hl b (by simp [hb])), List.length_cons]
    omega

theorem commit_spec (blake : Bytes → Bytes) (hp : p ≤ 2 ^ 256) (Q : List (List (Zp p))) (G : Zp p) (w k : Nat) (hk : 2 ≤ k) (hw : 0 < w)
    (hQ : Q.length = 3 * w) :
    ∃ tree root, Merkle.merkelizePolynomialEvaluations blake ((Q.map (FFT.dft G (2 ^ k))).map fun row => row.map enc) = .ok tree ∧
      tree[1]? = some root ∧ ∀ x, x < 2 ^ k → ∃ proof leaf, Merkle.mkBranch tree x = .ok proof ∧
        proof.length = k + 1 ∧ Merkle.verifyBranch blake root x proof = .ok leaf ∧
        ∀ (j : Nat) (q : List (Zp p)), Q[j]? = some q → blk leaf j = (toPoly q).eval (G ^ x) := by
  set rows : List (List Bytes) := (Q.map (FFT.dft G (2 ^ k))).map fun row => row.map encB with hrows
  have e : ((Q.map (FFT.dft G (2 ^ k))).map fun row => row.map enc) = rows.map (fun r => r.map .ok) := by
    rw [hrows]
    conv_rhs => rw [List.map_map]
    apply List.map_congr_left
    intro r _
    simp only [Function.comp, List.map_map]
    apply List.map_congr_left
    intro a _
    exact enc_eq hp a
  have key := fun x hx => Props.C32_pack_open_unpack blake rows w 3 k hk
    (by rw [hrows]; intro h; simp at h; rw [h] at hQ; simp at hQ; omega) (by simp [hrows, hQ])
    (by
      intro r hr
      simp only [hrows, List.mem_map] at hr
      obtain ⟨_, ⟨q, -, rfl⟩, rfl⟩ := hr
      simp) (by
      intro r hr b hb
      simp only [hrows, List.mem_map] at hr
      obtain ⟨_, ⟨q, -, rfl⟩, rfl⟩ := hr
      simp only [List.mem_map] at hb
      obtain ⟨a, -, rfl⟩ := hb
      exact encB_length a) x hx
  obtain ⟨tree, root, -, -, h1, h2, -⟩ := key 0 (by positivity)
  refine ⟨tree, root, by rw [e]; exact h1, h2, fun x hx => ?_⟩
  obtain ⟨tree', root', proof, leaf, g1, g2, g3, g0, g4, g5⟩ := key x hx
  rw [h1] at g1
  cases g1
  rw [h2] at g2
  cases g2
  refine ⟨proof, leaf, g3, g0, g4, fun j q hq => ?_⟩
  have hj : j < 3 * w := by rw [← hQ]; exact (List.getElem?_eq_some_iff.1 hq).1
  have g6 := congrArg (fun l : List (Option Bytes) => l[j]?) g5
  have g7 := congrArg (fun l : List (Zp p) => l[j]?) (unpack_eq (p := p) leaf w)
  simp only [List.getElem?_map, hrows, hq, Option.map_some, List.getElem?_range hj, FFT.dft_getElem? _ _ _ _ hx] at g6 g7
  cases hu : (Merkle.unpackMerkleLeaf leaf w 3)[j]? with
  | none => rw [hu] at g6; simp at g6
  | some u =>
    rw [hu] at g6 g7
    simp only [Option.map_some, Option.some.injEq] at g6 g7
    rw [← g7, g6, dec_encB hp]

/-- The polynomials of the honest prover. -/
theorem honest_polys {K : Type} [Field K] [DecidableEq K] {p : Nat} [Fact p.Prime] [CharP K p] {g : K} {steps k ext : Nat}
    (hk : steps = 2 ^ k ∨ steps = 3 * 2 ^ k) (hg : orderOf g = steps) (h2 : 2 ≤ steps) (he : 1 ≤ ext) {width : Nat} {polys : List (Dict K)}
    (hw : ∀ f ∈ polys, Mv.WF width f) (hp : width ≤ polys.length)
    (hdeg : ∀ f ∈ polys, (toMv width f).totalDegree ≤ ext + 1)
    {W : List (List K)} (hWl : W.length = width) (hW : ∀ col ∈ W, col.length = steps)
    (hvalid : ∀ i, i + 1 < steps → IsStep width width polys (wrow W i) (wrow W (i + 1)))
    {boundary : List (Nat × Nat × K)}
    (hb : ∀ (d : Nat) (col : List K), W[d]? = some col → ∃ i j inp, boundary[d]? = some (i, j, inp) ∧ col.head? = some inp)
    (hout : ∀ col ∈ W, ∀ out, col.getLast? = some out → out ≠ 0) (fuel : Nat) (hf : steps ≤ fuel) :
    ∃ P cps D B, tracePolys fuel p g W = .ok P ∧ constraintPolys width polys P g = .ok cps ∧
      remainderPolys cps steps (g ^ (steps - 1)) = .ok D ∧ boundaryPolys P W boundary (g ^ (steps - 1)) width = .ok B ∧
      P.length = width ∧ D.length = width ∧ B.length = width ∧
      (∀ f ∈ P ++ D ++ B, Canon f ∧ f.length ≤ steps * ext) ∧
      ∀ d, d < width → ∃ Pd Dd Bd f col i j inp out, P[d]? = some Pd ∧ D[d]? = some Dd ∧ B[d]? = some Bd ∧ polys[d]? = some f ∧
        W[d]? = some col ∧ boundary[d]? = some (i, j, inp) ∧ col.getLast? = some out ∧
        (∀ x : K, ∃ v, Mv.call width f (P.map fun q => (toPoly q).eval x) = .ok v ∧
          (toPoly Pd).eval (g * x) = v + (zprod g (steps - 1)).eval x * (toPoly Dd).eval x) ∧
        ∃ I : K[X], I.degree ≤ 1 ∧ I.eval 1 = inp ∧ I.eval (g ^ (steps - 1)) = out ∧
          ∀ x, (toPoly Pd).eval x = I.eval x + (x - 1) * (x - g ^ (steps - 1)) * (toPoly Bd).eval x := by
  have hord : Props.HasOrder g steps := ⟨by omega, hg ▸ pow_orderOf_eq_one g, fun j hj1 hj2 h => by
    have := Nat.le_of_dvd hj1 (orderOf_dvd_of_pow_eq_one h)
    omega⟩
  obtain ⟨P, h1, h3, h4⟩ := tracePolys_spec (p := p) ((FFT.good_iff _).2 ⟨k, hk⟩) hg (fun c hc => (hW c hc).le) fuel hf
  have hPl : P.length = width := h3.trans hWl
  obtain ⟨N1, hN1⟩ := Props.C48_remainder_partial p g steps k hk hord width polys hw hp W hWl hW (by
    intro d col hd0 hcol
    exfalso
    obtain ⟨hd, hcold⟩ := List.getElem?_eq_some_iff.1 hcol
    have hl := hW col (List.mem_of_getElem? hcol)
    obtain ⟨-, h⟩ := hvalid (steps - 2) (by omega)
    obtain ⟨f, f1, v, f2, f3⟩ := h d (by omega)
    rw [hd0] at f1
    cases f1
    rw [show steps - 2 + 1 = steps - 1 by omega] at f2
    refine hout col (List.mem_of_getElem? hcol) v ?_ ?_
    · rw [List.getLast?_eq_getElem?, hl]
      simpa [wrow, hcol, hl, show steps - 1 < steps by omega] using f2
    · rw [Mv.call_spec (d := []) (by simp) _ (by simpa [wrow] using hWl)] at f3
      cases f3
      simp [Mv.toMv])
  obtain ⟨P', cps, a1, a2, a3, a4, a5, -⟩ := hN1 (max N1 fuel) (le_max_left _ _)
  obtain ⟨N2, hN2⟩ := Props.C49_boundary_partial p g steps k hk hord h2 width W hWl hW boundary hb hout
  obtain ⟨P'', B, b1, b2, b3, b4⟩ := hN2 (max N2 fuel) (le_max_left _ _)
  have htr : ∀ fuel', steps ≤ fuel' → tracePolys fuel' p g W = .ok P := by
    intro fuel' hf'
    obtain ⟨Q, q1, q2, q3⟩ := tracePolys_spec (p := p) ((FFT.good_iff _).2 ⟨k, hk⟩) hg (fun c hc => (hW c hc).le) fuel' hf'
    rw [q1]
    congr 1
    apply List.ext_getElem (by omega)
    intro d d1 d2
    have hd : d < W.length := by omega
    obtain ⟨f, f1, f2, f3, f4⟩ := q3 d W[d] (by simp)
    obtain ⟨f', f1', f2', f3', f4'⟩ := h4 d W[d] (by simp)
    rw [(List.getElem?_eq_some_iff.1 f1).2, (List.getElem?_eq_some_iff.1 f1').2]
    apply toPoly_inj f2 f2'
    have hcard : ((Finset.range steps).image fun i => g ^ i).card = steps := by
      rw [Finset.card_image_of_injOn, Finset.card_range]
      intro i hi j hj hij
      exact pow_inj_of_order hg i j (by simpa using hi) (by simpa using hj) hij
    refine Polynomial.eq_of_degree_sub_lt_of_eval_finset_eq ((Finset.range steps).image fun i => g ^ i) ?_ ?_
    · rw [hcard]
      refine lt_of_le_of_lt (Polynomial.degree_sub_le _ _) (max_lt ?_ ?_)
      · exact Polynomial.degree_lt_iff_coeff_zero _ _ |>.2 fun m hm => coeff_eq_zero_of_length_le (by omega)
      · exact Polynomial.degree_lt_iff_coeff_zero _ _ |>.2 fun m hm => coeff_eq_zero_of_length_le (by omega)
    · intro y hy
      simp only [Finset.mem_image, Finset.mem_range] at hy
      obtain ⟨i, hi, rfl⟩ := hy
      rw [f4 i hi, f4' i hi]
  rw [htr _ (le_trans hf (le_max_right _ _))] at a1 b1
  cases a1
  cases b1
  obtain ⟨D, d1, d2, d3⟩ := a5 hvalid
  refine ⟨P, cps, D, B, h1, a2, d1, b2, hPl, d2, b3, ?_, ?_⟩
  · have hle : steps ≤ steps * ext := Nat.le_mul_of_pos_right _ he
    have hP' : ∀ f ∈ P, Canon f ∧ f.length ≤ steps := by
      intro f hfP
      obtain ⟨d, hd, rfl⟩ := List.getElem_of_mem hfP
      obtain ⟨f, f1, f2, f3, -⟩ := h4 d (W[d]'(by omega)) (by simp)
      rw [(List.getElem?_eq_some_iff.1 f1).2]
      exact ⟨f2, f3⟩
    intro f hfm
    rw [List.append_assoc, List.mem_append, List.mem_append] at hfm
    rcases hfm with hfm | hfm | hfm
    · exact ⟨(hP' f hfm).1, (hP' f hfm).2.trans hle⟩
    · obtain ⟨d, hd, rfl⟩ := List.getElem_of_mem hfm
      obtain ⟨c, q, c1, c2, c3, c4⟩ := d3 d (by omega)
      obtain ⟨cps', e1, e2, e3⟩ := constraintPolys_spec hw P hPl hp g
      rw [a2] at e1
      cases e1
      obtain ⟨c', e4, e5, -⟩ := e3 d (by omega)
      rw [c1] at e4
      cases e4
      rw [(List.getElem?_eq_some_iff.1 c2).2]
      have hdp : d < polys.length := by omega
      have hq := quotient_length (g := g) (steps := steps) (m := ext + 1) c3 (show (PVal.poly c).toP = _ from c4) (by
        rw [e5]
        apply natDegree_cpoly
        · rw [List.getD_eq_getElem?_getD, List.getElem?_eq_getElem hdp, Option.getD_some]
          exact hdeg _ (List.getElem_mem hdp)
        · rw [List.getD_eq_getElem?_getD, List.getElem?_eq_getElem (by omega), Option.getD_some]
          exact (hP' _ (List.getElem_mem _)).2
        · exact fun q hq => (hP' q hq).2)
      refine ⟨c3, hq.trans ?_⟩
      rw [Nat.max_eq_right (by omega), Nat.add_sub_cancel]
      calc ext * (steps - 1) + 1 ≤ ext * (steps - 1) + ext := by omega
        _ = steps * ext := by
          conv_rhs => rw [show steps = steps - 1 + 1 by omega]
          ring
    · obtain ⟨d, hd, rfl⟩ := List.getElem_of_mem hfm
      have hdW : d < W.length := by omega
      obtain ⟨Pd, Bd, inp, out, c1, c2, c3, c4, c5, I, c6, c7, c8, c9⟩ := b4 d W[d] (by simp)
      rw [(List.getElem?_eq_some_iff.1 c2).2]
      refine ⟨c3, le_trans (length_le_of_natDegree (n := steps - 1) c3 ?_) (by omega)⟩
      by_cases hB0 : toPoly Bd = 0
      · simp [hB0]
      · have hm : ((X - 1) * (X - C (g ^ (steps - 1))) : K[X]).Monic := by
          rw [← Polynomial.C_1]
          exact (Polynomial.monic_X_sub_C _).mul (Polynomial.monic_X_sub_C _)
        have h5 : (toPoly Bd * ((X - 1) * (X - C (g ^ (steps - 1)))) : K[X]).natDegree =
            (toPoly Bd).natDegree + ((X - 1) * (X - C (g ^ (steps - 1))) : K[X]).natDegree :=
          hm.natDegree_mul' hB0 |> fun h => by rw [mul_comm, h, add_comm]
        have h6 : toPoly Bd * ((X - 1) * (X - C (g ^ (steps - 1)))) = toPoly Pd - I := by rw [c9]; ring
        have h7 : (toPoly Pd - I).natDegree ≤ steps - 1 := by
          refine (Polynomial.natDegree_sub_le _ _).trans (max_le (natDegree_toPoly_le ?_) ?_)
          · have := (hP' Pd (List.mem_of_getElem? c1)).2
            omega
          · exact (Polynomial.natDegree_le_of_degree_le (n := 1) c6).trans (by omega)
        rw [h6] at h5
        omega
  · intro d hd
    have hdW : d < W.length := by omega
    obtain ⟨Pd, Bd, inp, out, c1, c2, c3, c4, c5, I, c6, c7, c8, c9⟩ := b4 d W[d] (by simp)
    obtain ⟨c, q, e1, e2, e3, e4⟩ := d3 d hd
    obtain ⟨c', f, Pd', f1, f2, f3, f4⟩ := a4 d hd
    rw [e1] at f1
    cases f1
    rw [c1] at f3
    cases f3
    obtain ⟨i, j, inp', g1, g2⟩ := hb d W[d] (by simp)
    rw [c4] at g2
    cases g2
    refine ⟨Pd, q, Bd, f, W[d], i, j, inp, out, c1, e2, c2, f2, by simp, g1, c5, ?_, I, c6, c7, c8, ?_⟩
    · intro x
      obtain ⟨v, v1, v2⟩ := f4 x
      refine ⟨v, v1, ?_⟩
      rw [e4, Polynomial.eval_mul] at v2
      have v3 : (zprod g (steps - 1)).eval x * (toPoly q).eval x = (toPoly Pd).eval (g * x) - v := v2
      rw [v3]; ring
    · intro x
      rw [c9]
      simp only [Polynomial.eval_add, Polynomial.eval_mul, Polynomial.eval_sub, Polynomial.eval_X, Polynomial.eval_one,
        Polynomial.eval_C]
      ring

theorem spotChecks_eq {blake : Bytes → Bytes} {S : Params (Zp p)} {mtree ltree : List Bytes} {lRoot : Bytes} {samples : Nat}
    {positions : List Int} {bs : List (List (List Bytes))} (hr : pyIdx ltree 1 = .ok lRoot)
    (o1 : Utils.getPseudorandomIndices blake lRoot S.precision samples S.ext = .ok positions)
    (hbs : pyMap (fun pos : Int => (do
      let b1 ← Merkle.mkBranch mtree pos.toNat
      let b2 ← Merkle.mkBranch mtree ((pos.toNat + S.ext) % S.precision)
      let b3 ← Merkle.mkBranch ltree pos.toNat
      .ok [b1, b2, b3] : Py (List (List Bytes)))) positions = .ok bs) :
    spotChecks blake S mtree ltree samples = .ok bs.flatten := by
  unfold spotChecks
  exact (bind_iff _ _ _).2 ⟨lRoot, hr, (bind_iff _ _ _).2 ⟨positions, o1, (bind_iff _ _ _).2 ⟨bs, hbs, rfl⟩⟩⟩

/-- The honest proof passes the checks at every sampled position. -/
theorem honest_spec (blake : Bytes → Bytes) (hbl : ∀ x, (blake x).length = 32) (hp : p ≤ 2 ^ 256) (S : Params (Zp p)) (hSp : S.p = p)
    (a b : Nat) (hst : S.steps = 2 ^ a) (hex : S.ext = 2 ^ b) (ha : 1 ≤ a) (hb1 : 1 ≤ b) (hab : a + b < 24)
    (hG2 : orderOf S.G2 = S.steps * S.ext) (hG1 : S.G1 = S.G2 ^ S.ext) (hlast : S.last = S.G1 ^ (S.steps - 1))
    (hn : S.n = S.width) (hw0 : 0 < S.width) (hw10 : S.width < 10)
    (hw : ∀ f ∈ S.polys, Mv.WF S.width f) (hpl : S.width ≤ S.polys.length)
    (hdeg : ∀ f ∈ S.polys, (toMv S.width f).totalDegree ≤ S.ext + 1)
    {W : List (List (Zp p))} (hWl : W.length = S.width) (hW : ∀ col ∈ W, col.length = S.steps)
    (hvalid : ∀ i, i + 1 < S.steps → IsStep S.width S.width S.polys (wrow W i) (wrow W (i + 1)))
    {boundary : List (Nat × Nat × Zp p)}
    (hb : ∀ (d : Nat) (col : List (Zp p)), W[d]? = some col → ∃ i j inp, boundary[d]? = some (i, j, inp) ∧ col.head? = some inp)
    (hout : ∀ col ∈ W, ∀ out, col.getLast? = some out → out ≠ 0)
    (friProve : List (Zp p) → Zp p → Nat → Nat → Py φ) (hfri : ∀ l deg, l.length ≤ S.steps * S.ext → getDegree S.polys = .ok deg →
      (1 ≤ deg → (toPoly l).degree < (S.steps * deg : Nat)) → ∃ pf, friProve l S.G2 (S.steps * deg) S.ext = .ok pf)
    (fuel : Nat) (hf : S.steps * S.ext ≤ fuel) :
    ∃ pr positions l deg, l.length ≤ S.steps * S.ext ∧ mkProof fuel blake friProve S W boundary = .ok pr ∧ getDegree S.polys = .ok deg ∧
      friProve l S.G2 (S.steps * deg) S.ext = .ok pr.fri ∧ (1 ≤ deg → (toPoly l).degree < (S.steps * deg : Nat)) ∧
      (∃ tree, Merkle.merkelize blake ((List.range S.precision).map fun x => .elt (enc ((toPoly l).eval (S.G2 ^ x)))) = .ok tree ∧
        tree[1]? = some pr.lRoot) ∧
      Utils.getPseudorandomIndices blake pr.lRoot S.precision (80 : Nat) S.ext = .ok positions ∧ positions.length = 80 ∧
      (∀ x ∈ positions, 0 ≤ x ∧ x < S.precision ∧ ¬ (S.ext : Int) ∣ x) ∧
      pr.branches.length = 240 ∧ (∀ br ∈ pr.branches, br.length = a + b + 1) ∧
      ∀ (i : Nat) (pos : Int), positions[i]? = some pos → verifyAt blake S W boundary pr i pos.toNat = .ok () := by
  have hchar : CharP (Zp p) p := Props.charP_zp p
  have henc := @enc_eq p _ hp
  have hcs := @commit_spec p _ blake hp
  clear hp
  have hpow : S.steps * S.ext = 2 ^ (a + b) := by rw [hst, hex, pow_add]
  have h2s : 2 ≤ S.steps := by rw [hst]; calc 2 = 2 ^ 1 := rfl
    _ ≤ 2 ^ a := Nat.pow_le_pow_right (by omega) ha
  have h2e : 2 ≤ S.ext := by rw [hex]; calc 2 = 2 ^ 1 := rfl
    _ ≤ 2 ^ b := Nat.pow_le_pow_right (by omega) hb1
  have hse : S.steps ≤ S.steps * S.ext := Nat.le_mul_of_pos_right _ (by omega)
  have hg1 : orderOf S.G1 = S.steps := by
    rw [hG1, orderOf_pow' _ (by omega), hG2, Nat.gcd_eq_right (Nat.dvd_mul_left _ _), Nat.mul_div_cancel _ (by omega)]
  have hl0 : S.last = S.G2 ^ ((S.steps - 1) * S.ext) := by rw [hlast, hG1, ← pow_mul, mul_comm]
  have hl1 : S.last ≠ 1 := by
    rw [hlast]
    intro h
    have := Nat.le_of_dvd (by omega) (orderOf_dvd_of_pow_eq_one h)
    omega
  obtain ⟨P, cps, D, B, p1, p2, p3, p4, pl, dl, bl, hQ, hd⟩ := honest_polys (p := p) (ext := S.ext) (.inl hst) hg1 h2s (by omega) hw hpl
    hdeg hWl hW hvalid hb hout fuel (by omega)
  have hgood : FFT.Good (S.steps * S.ext) := (FFT.good_iff _).2 ⟨a + b, .inl hpow⟩
  have hfft : ∀ f : List (Zp p), f.length ≤ S.steps * S.ext → FFT.nbFft fuel p S.G2 f = .ok (FFT.dft S.G2 (2 ^ (a + b)) f) := by
    intro f hfl
    rw [FFT.nbFft, FFT.fft1d_fwd hgood S.G2 hG2 p f hfl fuel hf, hpow]
  have hevals : pyMap (FFT.nbFft fuel p S.G2) (P ++ D ++ B) = .ok ((P ++ D ++ B).map (FFT.dft S.G2 (2 ^ (a + b)))) :=
    pyMap_ok _ _ _ fun f hf' => hfft f (hQ f hf').2
  obtain ⟨mtree, mRoot, m1, m2, m3⟩ := hcs (P ++ D ++ B) S.G2 S.width (a + b) (by omega) hw0 (by simp [pl, dl, bl]; omega)
  obtain ⟨k1, k2, k3, k4, ks, -, -, -, hcomb⟩ := Props.C52_combination_partial blake hbl mRoot S.width hw0 hw10 S.G2 S.precision S.steps
    (show 2 ≤ S.steps * S.ext by omega)
  obtain ⟨l, l1, l2, -, l4⟩ := hcomb P D B pl dl bl
  have hll : l.length ≤ S.steps * S.ext := by
    apply length_le_of_canon l2
    have : (toPoly l).degree ≤ ((S.steps * S.ext - 1 : Nat) : WithBot ℕ) := l4 _ fun f hf' =>
      Polynomial.degree_le_of_natDegree_le (natDegree_toPoly_le (by have := (hQ f hf').2; omega))
    exact fun i hi => Polynomial.coeff_eq_zero_of_natDegree_lt (lt_of_le_of_lt (Polynomial.natDegree_le_of_degree_le this) (by omega))
  have hleaf : ∀ x, x < 2 ^ (a + b) → ∃ tree root proof bb, Merkle.merkelize blake
      ((FFT.dft S.G2 (2 ^ (a + b)) l).map fun a => .elt (enc a)) = .ok tree ∧ tree[1]? = some root ∧ Merkle.mkBranch tree x = .ok proof ∧
      proof.length = a + b + 1 ∧ Merkle.verifyBranch blake root x proof = .ok bb := by
    intro x hx
    obtain ⟨tree, root, proof, bb, t1, t2, t3, t5, -, t4, -⟩ := Props.C30_merkle_completeness blake
      ((FFT.dft S.G2 (2 ^ (a + b)) l).map fun a => .elt (enc a)) ((FFT.dft S.G2 (2 ^ (a + b)) l).map encB) (a + b) (by omega) (by simp)
      (by
        rw [List.map_map, List.map_map]
        apply List.map_congr_left
        intro a _
        exact henc a) x (by simpa using hx)
    exact ⟨tree, root, proof, bb, t1, t2, t3, t5, t4⟩
  obtain ⟨ltree, lRoot, -, -, t1, t2, -⟩ := hleaf 0 (by positivity)
  have hleaf' : ∀ x, x < 2 ^ (a + b) → ∃ proof bb, Merkle.mkBranch ltree x = .ok proof ∧ proof.length = a + b + 1 ∧
      Merkle.verifyBranch blake lRoot x proof = .ok bb := by
    intro x hx
    obtain ⟨tree, root, proof, bb, s1, s2, s3, s5, s4⟩ := hleaf x hx
    rw [t1] at s1
    cases s1
    rw [t2] at s2
    cases s2
    exact ⟨proof, bb, s3, s5, s4⟩
  have hprec : S.precision = 2 ^ (a + b) := hpow
  have hlt24 : S.precision < 2 ^ 24 := by rw [hprec]; exact Nat.pow_lt_pow_right (by omega) hab
  obtain ⟨positions, o1, o2, o3⟩ := Props.C36_indices_exclude blake hbl lRoot S.precision 80 S.ext (by
      rw [show S.precision = S.steps * S.ext from rfl]; exact_mod_cast (by omega : 2 ≤ S.steps * S.ext))
    (by exact_mod_cast hlt24) (by exact_mod_cast h2e)
  have hposlt : ∀ (i : Nat) (pos : Int), positions[i]? = some pos → pos.toNat < 2 ^ (a + b) ∧ ¬ S.ext ∣ pos.toNat := by
    intro i pos hi
    obtain ⟨q1, q2, q3⟩ := o3 pos (List.mem_of_getElem? hi)
    refine ⟨by rw [← hprec]; omega, fun h => q3 ?_⟩
    have := Int.natCast_dvd_natCast.2 h
    rwa [Int.toNat_of_nonneg q1] at this
  have hmod : ∀ x, (x + S.ext) % S.precision < 2 ^ (a + b) := fun x => by rw [hprec]; exact Nat.mod_lt _ (by positivity)
  -- the spot checks
  obtain ⟨bs, hbs⟩ := pyMap_all (f := fun pos : Int => (do
      let b1 ← Merkle.mkBranch mtree pos.toNat
      let b2 ← Merkle.mkBranch mtree ((pos.toNat + S.ext) % S.precision)
      let b3 ← Merkle.mkBranch ltree pos.toNat
      .ok [b1, b2, b3] : Py (List (List Bytes)))) (l := positions) (by
    intro pos hpos
    obtain ⟨i, hi, rfl⟩ := List.getElem_of_mem hpos
    have hx := (hposlt i _ (List.getElem?_eq_getElem hi)).1
    obtain ⟨b1, -, e1, -⟩ := m3 _ hx
    obtain ⟨b2, -, e2, -⟩ := m3 _ (hmod positions[i].toNat)
    obtain ⟨b3, -, e3, -⟩ := hleaf' _ hx
    exact ⟨[b1, b2, b3], by simp only [e1, e2, e3, bind, Except.bind]⟩)
  have hspot : spotChecks blake S mtree ltree 80 = .ok bs.flatten :=
    spotChecks_eq ((pyIdx_iff _ _ _).2 t2) o1 hbs
  have hdegree : ∃ deg, getDegree S.polys = .ok deg ∧ ∀ f ∈ S.polys, (toMv S.width f).totalDegree ≤ deg := by
    have hnil : S.polys.map Mv.degree ≠ [] := by
      intro h
      rw [List.map_eq_nil_iff] at h
      rw [h] at hpl
      simp at hpl
      omega
    obtain ⟨m, e1, -, e3⟩ := pyMax_le hnil
    exact ⟨m, e1, fun f hf' => Mv.degree_eq (hw f hf') ▸ e3 _ (List.mem_map_of_mem hf')⟩
  obtain ⟨deg, hdg, hdegle⟩ := hdegree
  have hldeg : 1 ≤ deg → (toPoly l).degree < (S.steps * deg : Nat) := by
    intro h1d
    have hpos : 0 < S.steps * deg := Nat.mul_pos (by omega) (by omega)
    obtain ⟨P', cps', D', B', p1', p2', p3', p4', -, -, -, hQ', -⟩ := honest_polys (p := p) (ext := deg) (.inl hst) hg1 h2s h1d hw
      hpl (fun f hf' => (hdegle f hf').trans (by omega)) hWl hW hvalid hb hout fuel (by omega)
    rw [p1] at p1'
    cases p1'
    rw [p2] at p2'
    cases p2'
    rw [p3] at p3'
    cases p3'
    rw [p4] at p4'
    cases p4'
    have : (toPoly l).degree ≤ ((S.steps * deg - 1 : Nat) : WithBot ℕ) := l4 _ fun f hf' =>
      Polynomial.degree_le_of_natDegree_le (natDegree_toPoly_le (by have := (hQ' f hf').2; omega))
    exact lt_of_le_of_lt this (by exact_mod_cast Nat.sub_lt hpos (by omega))
  obtain ⟨pf, hpf⟩ := hfri l deg hll hdg hldeg
  have hmk : mkProof fuel blake friProve S W boundary = .ok { mRoot, lRoot, branches := bs.flatten, fri := pf } := by
    have i1 : pyIdx mtree 1 = .ok mRoot := (pyIdx_iff _ _ _).2 m2
    have i2 : pyIdx ltree 1 = .ok lRoot := (pyIdx_iff _ _ _).2 t2
    rw [hn.symm] at p2
    have hl' : FFT.nbFft fuel p S.G2 l = .ok (FFT.dft S.G2 (2 ^ (a + b)) l) := hfft l hll
    unfold mkProof
    rw [hSp, p1]
    simp only [bind, Except.bind]
    rw [p2]
    simp only []
    rw [hlast, p3]
    simp only []
    rw [p4]
    simp only []
    rw [hevals]
    simp only [m1, i1, l1, hl', t1, hspot, i2, hdg, hpf]
  obtain ⟨blen, bget⟩ := (pyMap_iff _ _ _).1 hbs
  have hb3 : ∀ b ∈ bs, b.length = 3 := by
    intro bb hbb
    obtain ⟨j, hj, rfl⟩ := List.getElem_of_mem hbb
    obtain ⟨bb, e1, e2⟩ := bget j (positions[j]'(by omega)) (by simp)
    rw [(List.getElem?_eq_some_iff.1 e1).2]
    simp only [bind_iff] at e2
    obtain ⟨_, -, _, -, _, -, e3⟩ := e2
    cases e3
    rfl
  refine ⟨_, positions, l, deg, hll, hmk, hdg, hpf, hldeg, ⟨ltree, ?_, t2⟩, o1, o2, fun x hx => o3 x hx, ?_, ?_, ?_⟩
  · rw [← t1, hprec, FFT.dft, List.map_map]
    rfl
  · show bs.flatten.length = 240
    rw [flatten3_length bs hb3, blen, o2]
  · show ∀ br ∈ bs.flatten, br.length = a + b + 1
    intro br hbr
    obtain ⟨bb, hbb, hbr⟩ := List.mem_flatten.1 hbr
    obtain ⟨j, hj, rfl⟩ := List.getElem_of_mem hbb
    obtain ⟨bb, e1, e2⟩ := bget j (positions[j]'(by omega)) (by simp)
    rw [(List.getElem?_eq_some_iff.1 e1).2] at hbr
    obtain ⟨hx, -⟩ := hposlt j (positions[j]'(by omega)) (by simp)
    simp only [bind_iff] at e2
    obtain ⟨br1, u1, br2, u2, br3, u3, c3⟩ := e2
    cases c3
    obtain ⟨_, -, v1, v2, -⟩ := m3 _ hx
    obtain ⟨_, -, w1, w2, -⟩ := m3 _ (hmod (positions[j]'(by omega)).toNat)
    obtain ⟨_, -, z1, z2, -⟩ := hleaf' _ hx
    rw [u1] at v1
    cases v1
    rw [u2] at w1
    cases w1
    rw [u3] at z1
    cases z1
    simp only [List.mem_cons, List.not_mem_nil, or_false] at hbr
    rcases hbr with rfl | rfl | rfl
    · exact v2
    · exact w2
    · exact z2
  intro i pos hi
  obtain ⟨hx, hnd⟩ := hposlt i pos hi
  rw [verifyAt_iff _ _ _ _ _ _ _ hl1]
  obtain ⟨bb, c1, c2⟩ := bget i pos hi
  simp only [bind_iff] at c2
  obtain ⟨br1, u1, br2, u2, br3, u3, c3⟩ := c2
  cases c3
  obtain ⟨br1', leaf1, v1, -, v2, v3⟩ := m3 _ hx
  rw [u1] at v1
  cases v1
  obtain ⟨br2', leaf2, w1, -, w2, w3⟩ := m3 _ (hmod pos.toNat)
  rw [u2] at w1
  cases w1
  obtain ⟨br3', leaf3, z1, -, z2⟩ := hleaf' _ hx
  rw [u3] at z1
  cases z1
  set x := S.G2 ^ pos.toNat with hxdef
  have hgx : S.G2 ^ ((pos.toNat + S.ext) % S.precision) = S.G1 * x := by
    rw [show S.precision = orderOf S.G2 from hG2.symm, pow_mod_orderOf, pow_add, hG1, mul_comm]
  rw [hgx] at w3
  have hxlast : x ≠ S.last := by
    intro h
    rw [hl0, hxdef] at h
    have hlt : (S.steps - 1) * S.ext < S.steps * S.ext := Nat.mul_lt_mul_of_pos_right (by omega) (by omega)
    have := pow_inj_of_order hG2 _ _ (by rw [hpow]; exact hx) hlt h
    exact hnd (this ▸ Nat.dvd_mul_left _ _)
  have hPv : (List.range S.width).map (blk (p := p) leaf1) = P.map fun q => (toPoly q).eval x := by
    apply List.ext_getElem (by simp [pl])
    intro d d1 d2
    have hd' : d < P.length := by simpa using d2
    simp only [List.getElem_map, List.getElem_range]
    exact v3 d P[d] (by rw [List.append_assoc, List.getElem?_append_left hd']; simp)
  have hzq : (zprod S.G1 (S.steps - 1)).eval x = (x ^ S.steps - 1) / (x - S.last) := by
    rw [eq_div_iff (sub_ne_zero.2 hxlast)]
    have h5 := zprod_full (by omega) hg1
    have h6 : zprod S.G1 S.steps = zprod S.G1 (S.steps - 1) * (X - C S.last) := by
      conv_lhs => rw [show S.steps = S.steps - 1 + 1 by omega]
      rw [zprod, Finset.prod_range_succ, hlast]
      rfl
    rw [h6] at h5
    have := congrArg (Polynomial.eval x) h5
    simpa using this
  have hPget : ∀ (d : Nat) (Pd : List (Zp p)), P[d]? = some Pd → (P ++ D ++ B)[d]? = some Pd := by
    intro d Pd h
    have := (List.getElem?_eq_some_iff.1 h).1
    rw [List.append_assoc, List.getElem?_append_left this, h]
  have hDget : ∀ (d : Nat) (Dd : List (Zp p)), D[d]? = some Dd → (P ++ D ++ B)[S.width + d]? = some Dd := by
    intro d Dd h
    have := (List.getElem?_eq_some_iff.1 h).1
    have e : S.width + d - P.length = d := by omega
    rw [List.append_assoc, List.getElem?_append_right (by omega), e, List.getElem?_append_left this, h]
  have hBget : ∀ (d : Nat) (Bd : List (Zp p)), B[d]? = some Bd → (P ++ D ++ B)[2 * S.width + d]? = some Bd := by
    intro d Bd h
    have e : 2 * S.width + d - (P ++ D).length = d := by rw [List.length_append]; omega
    rw [List.getElem?_append_right (by rw [List.length_append]; omega), e, h]
  refine ⟨br1, br2, br3, leaf1, leaf2, leaf3, ?_, ?_, ?_, v2, w2, z2, hxlast, ?_, ?_⟩
  · exact flatten3 bs hb3 i 0 _ (by omega) c1
  · exact flatten3 bs hb3 i 1 _ (by omega) c1
  · exact flatten3 bs hb3 i 2 _ (by omega) c1
  · rw [hPv, hn]
    obtain ⟨y, y1, y2⟩ := nextState_total hw hpl (P.map fun q => (toPoly q).eval x) (by simpa using pl)
    have hstep := (nextState_iff _ _ _ _ _).1 y1
    refine ⟨y, hstep, fun d hdd => ?_⟩
    obtain ⟨Pd, Dd, Bd, f, col, i', j', inp, out, e1, e2, e3, e4, e5, e6, e7, e8, e9⟩ := hd d hdd
    obtain ⟨v, f1, f2⟩ := e8 x
    obtain ⟨f', g1, v', g2, g3⟩ := hstep.2 d hdd
    rw [e4] at g1
    cases g1
    rw [f1] at g3
    cases g3
    refine ⟨v, g2, ?_⟩
    rw [w3 d Pd (hPget d Pd e1), f2, hzq, v3 _ Dd (hDget d Dd e2)]
  · intro d hdd
    obtain ⟨Pd, Dd, Bd, f, col, i', j', inp, out, e1, e2, e3, e4, e5, e6, e7, e8, I, e9, e10, e11, e12⟩ := hd d hdd
    refine ⟨i', j', inp, col, out, e6, e5, e7, I, e9, e10, by rw [hlast]; exact e11, ?_⟩
    rw [v3 d Pd (hPget d Pd e1), v3 _ Bd (hBget d Bd e3), e12 x, hlast]

theorem verifyProof_iff (blake : Bytes → Bytes) (friVerify : φ → Bytes → Zp p → Nat → Nat → Py Bool) (S : Params (Zp p))
    (W : List (List (Zp p))) (boundary : List (Nat × Nat × Zp p)) (pr : Proof φ) (r : Bool) :
    verifyProof blake friVerify S W boundary pr = .ok r ↔ r = true ∧ ∃ deg positions, getDegree S.polys = .ok deg ∧
      friVerify pr.fri pr.lRoot S.G2 (S.steps * deg) S.ext = .ok true ∧
      Utils.getPseudorandomIndices blake pr.lRoot S.precision S.factor S.ext = .ok positions ∧
      ∀ (i : Nat) (pos : Int), positions[i]? = some pos → verifyAt blake S W boundary pr i pos.toNat = .ok () := by
  simp only [verifyProof, bind_iff, pyAssert_iff]
  constructor
  · rintro ⟨deg, h1, ok, h2, -, h3, positions, h4, us, h5, h6⟩
    cases h3
    cases h6
    refine ⟨rfl, deg, positions, h1, h2, h4, fun i pos hi => ?_⟩
    obtain ⟨u, -, h⟩ := ((pyMap_iff _ _ _).1 h5).2 i (pos, i) (by simp [List.getElem?_zipIdx, hi])
    exact h
  · rintro ⟨rfl, deg, positions, h1, h2, h4, h5⟩
    obtain ⟨us, hus⟩ := pyMap_all (f := fun ip : Int × Nat => verifyAt blake S W boundary pr ip.2 ip.1.toNat) (l := positions.zipIdx) (by
      rintro ⟨pos, i⟩ hm
      exact ⟨(), h5 i pos (by simpa using List.mem_zipIdx_iff_getElem?.1 hm)⟩)
    exact ⟨deg, h1, true, h2, (), rfl, positions, h4, us, hus, rfl⟩

theorem values_exist {G : Zp p} {n : Nat} (hn : 1 ≤ n) (hG : orderOf G = n) (v : Nat → Zp p) :
    ∃ q : List (Zp p), ∀ x, x < n → (toPoly q).eval (G ^ x) = v x := by
  refine ⟨(FFT.dft G⁻¹ n ((List.range n).map v)).map fun x => x * (n : Zp p)⁻¹, fun x hx => ?_⟩
  have h := FFT.dft_dft_inv hn hG ((List.range n).map v) (by simp)
  have h2 := congrArg (fun l => l[x]?) h
  simpa only [FFT.dft_getElem? _ _ _ _ hx, List.getElem?_map, List.getElem?_range hx, Option.map_some, Option.some.injEq] using h2

/-- Values that satisfy the checks at every sampled position can be committed to, whatever the claim. -/
theorem forge (blake : Bytes → Bytes) (hbl : ∀ x, (blake x).length = 32) (hp : p ≤ 2 ^ 256) (S : Params (Zp p))
    (a b : Nat) (hst : S.steps = 2 ^ a) (hex : S.ext = 2 ^ b) (ha : 1 ≤ a) (hb1 : 1 ≤ b) (hab : a + b < 24)
    (hG2 : orderOf S.G2 = S.steps * S.ext) (hG1 : S.G1 = S.G2 ^ S.ext) (hlast : S.last = S.G1 ^ (S.steps - 1))
    (hn : S.n = S.width) (hw0 : 0 < S.width) (hw : ∀ f ∈ S.polys, Mv.WF S.width f) (hpl : S.width ≤ S.polys.length)
    {W : List (List (Zp p))} (hWl : S.width ≤ W.length) (hW : ∀ col ∈ W, col ≠ [])
    {boundary : List (Nat × Nat × Zp p)} (hbd : S.width ≤ boundary.length) :
    ∃ (mRoot lRoot : Bytes) (branches : List (List Bytes)) (tree : List Bytes) (positions : List Int),
      Merkle.merkelize blake ((List.range S.precision).map fun _ => .elt (enc (0 : Zp p))) = .ok tree ∧ tree[1]? = some lRoot ∧
      Utils.getPseudorandomIndices blake lRoot S.precision S.factor S.ext = .ok positions ∧
      ∀ (fri : φ) (i : Nat) (pos : Int), positions[i]? = some pos →
        verifyAt blake S W boundary { mRoot, lRoot, branches, fri } i pos.toNat = .ok () := by
  have henc := @enc_eq p _ hp
  have hcs := @commit_spec p _ blake hp
  clear hp
  have hpow : S.steps * S.ext = 2 ^ (a + b) := by rw [hst, hex, pow_add]
  have h2s : 2 ≤ S.steps := by rw [hst]; calc 2 = 2 ^ 1 := rfl
    _ ≤ 2 ^ a := Nat.pow_le_pow_right (by omega) ha
  have h2e : 2 ≤ S.ext := by rw [hex]; calc 2 = 2 ^ 1 := rfl
    _ ≤ 2 ^ b := Nat.pow_le_pow_right (by omega) hb1
  have hl0 : S.last = S.G2 ^ ((S.steps - 1) * S.ext) := by rw [hlast, hG1, ← pow_mul, mul_comm]
  have hg1 : orderOf S.G1 = S.steps := by
    rw [hG1, orderOf_pow' _ (by omega), hG2, Nat.gcd_eq_right (Nat.dvd_mul_left _ _), Nat.mul_div_cancel _ (by omega)]
  have hl1 : S.last ≠ 1 := by
    rw [hlast]
    intro h
    have := Nat.le_of_dvd (by omega) (orderOf_dvd_of_pow_eq_one h)
    omega
  have hN : 2 ≤ 2 ^ (a + b) := by
    rw [← hpow]; exact le_trans h2s (Nat.le_mul_of_pos_right _ (by omega))
  -- the values
  obtain ⟨y, y1, y2⟩ := nextState_total hw hpl (List.replicate S.width 0) (by simp)
  let Ln : Nat → (Zp p)[X] := fun d => C ((boundary.getD d (0, 0, 0)).2.2) +
    C (((W.getD d []).getLastD 0 - (boundary.getD d (0, 0, 0)).2.2) / (S.last - 1)) * (X - 1)
  choose! qD hqD using fun d : Nat => values_exist (p := p) (by omega : 1 ≤ 2 ^ (a + b)) (hG2.trans hpow) fun x =>
    -(y.getD d 0) / (((S.G2 ^ x) ^ S.steps - 1) / (S.G2 ^ x - S.last))
  choose! qB hqB using fun d : Nat => values_exist (p := p) (by omega : 1 ≤ 2 ^ (a + b)) (hG2.trans hpow) fun x =>
    -((Ln d).eval (S.G2 ^ x)) / ((S.G2 ^ x - 1) * (S.G2 ^ x - S.last))
  let Q : List (List (Zp p)) := List.replicate S.width [] ++ (List.range S.width).map qD ++ (List.range S.width).map qB
  obtain ⟨mtree, mRoot, m1, m2, m3⟩ := hcs Q S.G2 S.width (a + b) (by omega) hw0 (by simp [Q]; omega)
  have hleaf : ∀ x, x < 2 ^ (a + b) → ∃ tree root proof bb, Merkle.merkelize blake
      ((List.range (2 ^ (a + b))).map fun _ => .elt (enc (0 : Zp p))) = .ok tree ∧ tree[1]? = some root ∧
      Merkle.mkBranch tree x = .ok proof ∧ Merkle.verifyBranch blake root x proof = .ok bb := by
    intro x hx
    obtain ⟨tree, root, proof, bb, t1, t2, t3, -, -, t4, -⟩ := Props.C30_merkle_completeness blake
      ((List.range (2 ^ (a + b))).map fun _ => .elt (enc (0 : Zp p))) ((List.range (2 ^ (a + b))).map fun _ => encB (0 : Zp p)) (a + b)
      (by omega) (by simp)
      (by
        rw [List.map_map, List.map_map]
        apply List.map_congr_left
        intro a _
        exact henc 0) x (by simpa using hx)
    exact ⟨tree, root, proof, bb, t1, t2, t3, t4⟩
  obtain ⟨ltree, lRoot, -, -, t1, t2, -⟩ := hleaf 0 (by omega)
  have hleaf' : ∀ x, x < 2 ^ (a + b) → ∃ proof bb, Merkle.mkBranch ltree x = .ok proof ∧ Merkle.verifyBranch blake lRoot x proof = .ok bb := by
    intro x hx
    obtain ⟨tree, root, proof, bb, s1, s2, s3, s4⟩ := hleaf x hx
    rw [t1] at s1
    cases s1
    rw [t2] at s2
    cases s2
    exact ⟨proof, bb, s3, s4⟩
  have hprec : S.precision = 2 ^ (a + b) := hpow
  have hlt24 : S.precision < 2 ^ 24 := by rw [hprec]; exact Nat.pow_lt_pow_right (by omega) hab
  obtain ⟨positions, o1, o2, o3⟩ := Props.C36_indices_exclude blake hbl lRoot S.precision S.factor S.ext (by
      rw [hprec]; exact_mod_cast hN) (by exact_mod_cast hlt24) (by exact_mod_cast h2e)
  have hmod : ∀ x, (x + S.ext) % S.precision < 2 ^ (a + b) := fun x => by rw [hprec]; exact Nat.mod_lt _ (by omega)
  have hposlt : ∀ (i : Nat) (pos : Int), positions[i]? = some pos → pos.toNat < 2 ^ (a + b) ∧ ¬ S.ext ∣ pos.toNat := by
    intro i pos hi
    obtain ⟨q1, q2, q3⟩ := o3 pos (List.mem_of_getElem? hi)
    refine ⟨by rw [← hprec]; omega, fun h => q3 ?_⟩
    have := Int.natCast_dvd_natCast.2 h
    rwa [Int.toNat_of_nonneg q1] at this
  obtain ⟨bs, hbs⟩ := pyMap_all (f := fun pos : Int => (do
      let b1 ← Merkle.mkBranch mtree pos.toNat
      let b2 ← Merkle.mkBranch mtree ((pos.toNat + S.ext) % S.precision)
      let b3 ← Merkle.mkBranch ltree pos.toNat
      .ok [b1, b2, b3] : Py (List (List Bytes)))) (l := positions) (by
    intro pos hpos
    obtain ⟨i, hi, rfl⟩ := List.getElem_of_mem hpos
    have hx := (hposlt i _ (List.getElem?_eq_getElem hi)).1
    obtain ⟨b1, -, e1, -⟩ := m3 _ hx
    obtain ⟨b2, -, e2, -⟩ := m3 _ (hmod positions[i].toNat)
    obtain ⟨b3, -, e3, -⟩ := hleaf' _ hx
    exact ⟨[b1, b2, b3], by simp only [e1, e2, e3, bind, Except.bind]⟩)
  obtain ⟨blen, bget⟩ := (pyMap_iff _ _ _).1 hbs
  have hb3 : ∀ b ∈ bs, b.length = 3 := by
    intro bb hbb
    obtain ⟨j, hj, rfl⟩ := List.getElem_of_mem hbb
    obtain ⟨bb, e1, e2⟩ := bget j (positions[j]'(by omega)) (by simp)
    rw [(List.getElem?_eq_some_iff.1 e1).2]
    simp only [bind_iff] at e2
    obtain ⟨_, -, _, -, _, -, e3⟩ := e2
    cases e3
    rfl
  refine ⟨mRoot, lRoot, bs.flatten, ltree, positions, by rw [hprec]; exact t1, t2, o1, fun fri i pos hi => ?_⟩
  obtain ⟨hx, hnd⟩ := hposlt i pos hi
  rw [verifyAt_iff _ _ _ _ _ _ _ hl1]
  obtain ⟨bb, c1, c2⟩ := bget i pos hi
  simp only [bind_iff] at c2
  obtain ⟨br1, u1, br2, u2, br3, u3, c3⟩ := c2
  cases c3
  obtain ⟨br1', leaf1, v1, -, v2, v3⟩ := m3 _ hx
  rw [u1] at v1
  cases v1
  obtain ⟨br2', leaf2, w1, -, w2, w3⟩ := m3 _ (hmod pos.toNat)
  rw [u2] at w1
  cases w1
  obtain ⟨br3', leaf3, z1, z2⟩ := hleaf' _ hx
  rw [u3] at z1
  cases z1
  set x := S.G2 ^ pos.toNat with hxdef
  have hne : ∀ j, x ≠ S.G2 ^ (j * S.ext) := by
    intro j h
    have hG2' : S.G2 ^ (2 ^ (a + b)) = 1 := by rw [← hpow, ← hG2]; exact pow_orderOf_eq_one _
    have h3 : S.G2 ^ (j * S.ext) = S.G2 ^ ((j * S.ext) % 2 ^ (a + b)) := by
      conv_lhs => rw [← Nat.mod_add_div (j * S.ext) (2 ^ (a + b)), pow_add, pow_mul, hG2', one_pow, mul_one]
    rw [h3, hxdef] at h
    have := pow_inj_of_order (hG2.trans hpow) _ _ hx (Nat.mod_lt _ (by omega)) h
    apply hnd
    rw [this]
    exact (Nat.dvd_mod_iff (by rw [← hpow]; exact Nat.dvd_mul_left _ _)).2 (Nat.dvd_mul_left _ _)
  have hxlast : x ≠ S.last := by rw [hl0]; exact hne _
  have hx1 : x ≠ 1 := by simpa using hne 0
  have hxs : x ^ S.steps ≠ 1 := by
    intro h
    rw [hxdef, ← pow_mul] at h
    have := orderOf_dvd_of_pow_eq_one h
    rw [hG2, mul_comm pos.toNat] at this
    exact hnd (Nat.dvd_of_mul_dvd_mul_left (by omega) this)
  have hz : (x ^ S.steps - 1) / (x - S.last) ≠ 0 := div_ne_zero (sub_ne_zero.2 hxs) (sub_ne_zero.2 hxlast)
  have hPget : ∀ d, d < S.width → Q[d]? = some [] := by
    intro d hd
    simp only [Q, List.append_assoc]
    rw [List.getElem?_append_left (by simpa using hd), List.getElem?_replicate, if_pos hd]
  have hDget : ∀ d, d < S.width → Q[S.width + d]? = some (qD d) := by
    intro d hd
    simp only [Q, List.append_assoc]
    rw [List.getElem?_append_right (by simp), List.length_replicate, Nat.add_sub_cancel_left,
      List.getElem?_append_left (by simpa using hd), List.getElem?_map, List.getElem?_range hd]
    rfl
  have hBget : ∀ d, d < S.width → Q[2 * S.width + d]? = some (qB d) := by
    intro d hd
    have e : 2 * S.width + d - (List.replicate S.width ([] : List (Zp p)) ++ (List.range S.width).map qD).length = d := by
      simp; omega
    simp only [Q]
    rw [List.getElem?_append_right (by simp; omega), e, List.getElem?_map, List.getElem?_range hd]
    rfl
  have hzero : (List.range S.width).map (blk (p := p) leaf1) = List.replicate S.width 0 := by
    apply List.ext_getElem (by simp)
    intro d d1 d2
    have hd' : d < S.width := by simpa using d2
    simp only [List.getElem_map, List.getElem_range, List.getElem_replicate]
    rw [v3 d [] (hPget d hd')]
    simp [toPoly]
  refine ⟨br1, br2, br3, leaf1, leaf2, leaf3, ?_, ?_, ?_, v2, w2, z2, hxlast, ?_, ?_⟩
  · exact flatten3 bs hb3 i 0 _ (by omega) c1
  · exact flatten3 bs hb3 i 1 _ (by omega) c1
  · exact flatten3 bs hb3 i 2 _ (by omega) c1
  · rw [hzero, hn]
    refine ⟨y, (nextState_iff _ _ _ _ _).1 y1, fun d hd => ⟨y.getD d 0, ?_, ?_⟩⟩
    · rw [List.getD_eq_getElem?_getD, List.getElem?_eq_getElem (by omega)]
      rfl
    · rw [w3 d [] (hPget d hd), v3 _ _ (hDget d hd), hqD d _ hx, ← hxdef, mul_div_cancel₀ _ hz]
      simp [toPoly]
  · intro d hd
    have hd1 : d < boundary.length := by omega
    have hd2 : d < W.length := by omega
    have hsub : S.last - 1 ≠ 0 := sub_ne_zero.2 hl1
    refine ⟨boundary[d].1, boundary[d].2.1, boundary[d].2.2, W[d], W[d].getLast (hW _ (List.getElem_mem hd2)), by simp, by simp,
      List.getLast?_eq_some_getLast _, Ln d, ?_, ?_, ?_, ?_⟩
    · refine Polynomial.degree_le_of_natDegree_le (n := 1) ?_
      refine (Polynomial.natDegree_add_le _ _).trans (max_le (by simp) ((Polynomial.natDegree_C_mul_le _ _).trans ?_))
      exact (Polynomial.natDegree_sub_le _ _).trans (by rw [Polynomial.natDegree_X, Polynomial.natDegree_one]; simp)
    · simp [Ln, hd1]
    · have e : (W.getD d []).getLastD 0 = W[d].getLast (hW _ (List.getElem_mem hd2)) := by
        rw [List.getLastD_eq_getLast?, List.getD_eq_getElem?_getD, List.getElem?_eq_getElem hd2, Option.getD_some,
          List.getLast?_eq_some_getLast (hW _ (List.getElem_mem hd2))]
        rfl
      rw [← e]
      simp only [Ln, Polynomial.eval_add, Polynomial.eval_mul, Polynomial.eval_C, Polynomial.eval_sub, Polynomial.eval_X,
        Polynomial.eval_one, List.getD_eq_getElem?_getD, List.getElem?_eq_getElem hd1, Option.getD_some]
      rw [div_mul_cancel₀ _ hsub]
      ring
    · rw [v3 d [] (hPget d hd), v3 _ _ (hBget d hd), hqB d _ hx, ← hxdef,
        mul_div_cancel₀ _ (mul_ne_zero (sub_ne_zero.2 hx1) (sub_ne_zero.2 hxlast))]
      simp [toPoly]

end

end Verif.Stark
