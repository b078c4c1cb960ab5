import Verif.Proofs.StarkProtocol
import Verif.Proofs.SpotChecks
import Verif.Proofs.SmallPrimes
/-!
# C50, C51, C74–C76: the STARK prover and verifier

`verifyAt … i pos` is `verify_proof_at_position`, `.ok ()` meaning that it raises nothing.  `blk leaf j` is the `j`-th 32-byte block
of a leaf read as a field element, `IsExecution` says what a valid witness is (both in `Verif.Spec.Stark`).
-/

namespace Verif.Props
open Poly Stark Air
open scoped Polynomial
open Polynomial (C X)
open Mv (Dict toMv)

section
variable {p : Nat} [Fact p.Prime] {φ : Type}

/-- A computation of `2^a` steps over the integers modulo `p`, with extension factor `2^b`. -/
structure Computation (p a b width : Nat) [Fact p.Prime] (polys : List (Dict (Zp p))) : Prop where
  modulus : p ≤ 2 ^ 256
  steps : 1 ≤ a
  ext : 1 ≤ b
  size : a + b < 24
  root : HasOrder ((7 : Zp p) ^ ((p - 1) / (2 ^ a * 2 ^ b))) (2 ^ a * 2 ^ b)
  width_pos : 0 < width
  width_lt : width < 10
  count : width ≤ polys.length
  wf : ∀ f ∈ polys, Mv.WF width f

theorem Computation.params {a b width : Nat} {polys : List (Dict (Zp p))} (c : Computation p a b width polys) (factor : Nat) :
    ∃ N, ∀ fuel ≥ N, ∃ S, mkStark fuel p (2 ^ a) (2 ^ b) width width polys factor = .ok S ∧
        S.steps = 2 ^ a ∧ S.ext = 2 ^ b ∧ S.width = width ∧ S.n = width ∧ S.polys = polys ∧ S.factor = factor ∧ S.p = p ∧
        S.precision = 2 ^ a * 2 ^ b ∧ S.G1 = S.G2 ^ (2 ^ b) ∧ HasOrder S.G2 (2 ^ a * 2 ^ b) ∧ HasOrder S.G1 (2 ^ a) ∧
        S.last = S.G1 ^ (2 ^ a - 1) := by
  have h2a : 2 ≤ 2 ^ a := by
    calc 2 = 2 ^ 1 := rfl
      _ ≤ 2 ^ a := Nat.pow_le_pow_right (by omega) c.steps
  have h2b : 2 ≤ 2 ^ b := by
    calc 2 = 2 ^ 1 := rfl
      _ ≤ 2 ^ b := Nat.pow_le_pow_right (by omega) c.ext
  have h4 : 4 ≤ 2 ^ a * 2 ^ b := Nat.mul_le_mul h2a h2b
  have hp1 := (Fact.out : p.Prime).one_lt
  set G := (7 : Zp p) ^ ((p - 1) / (2 ^ a * 2 ^ b)) with hG
  have hpow : G ^ (p - 1) = 1 := by
    have h0 : G ≠ 0 := by
      intro h
      have := c.root.2.1
      rw [← hG, h, zero_pow (by omega)] at this
      exact zero_ne_one this
    have h1 : Zp.equivZMod G ≠ 0 := by
      rw [Ne, map_eq_zero_iff _ (Zp.equivZMod (p := p)).injective]
      exact h0
    apply (Zp.equivZMod (p := p)).injective
    rw [map_pow, ZMod.pow_card_sub_one_eq_one h1, map_one]
  have hdvd : 2 ^ a * 2 ^ b ∣ p - 1 := by
    rw [← c.root.eq]
    exact orderOf_dvd_of_pow_eq_one hpow
  have hp2 : p ≠ 2 := by
    rintro rfl
    have := Nat.le_of_dvd (by omega) hdvd
    omega
  obtain ⟨N, hN⟩ := (C73_parameters_partial p hp2 (C73_modp p) hp1 (2 ^ a) (2 ^ b) h2a (by omega) hdvd width width polys factor).1 c.root
  refine ⟨N, fun fuel hf => ?_⟩
  obtain ⟨S, h1, h2, h3, h4, h5, h6, h7, h8, h9, h10, h11, h12, h13, h14⟩ := hN fuel hf
  exact ⟨S, h1, h2, h3, h4, h5, h6, h7, h8, h9, h11, h12, h13, h14⟩

/-- **C50**. Let the step polynomials have total degree at most `extension_factor + 1`.  From a valid execution whose outputs are
not zero, the prover returns a proof, and `verify_proof_at_position` raises nothing at any of the 80 sampled positions, with any hash
function of 32 bytes. -/
theorem C50_spot_checks_partial (blake : Bytes → Bytes) (hbl : ∀ x, (blake x).length = 32) (a b width : Nat)
    (polys : List (Dict (Zp p))) (c : Computation p a b width polys) (hdeg : ∀ f ∈ polys, (toMv width f).totalDegree ≤ 2 ^ b + 1)
    (boundary : List (Nat × Nat × Zp p)) (W : List (List (Zp p))) (hW : IsExecution width (2 ^ a) polys boundary W)
    (hout : ∀ col ∈ W, ∀ out, col.getLast? = some out → out ≠ 0)
    (friProve : List (Zp p) → Zp p → Nat → Nat → Py φ) (hfri : ∀ l G d e, ∃ pf, friProve l G d e = .ok pf) (factor : Nat) :
    ∃ N, ∀ fuel ≥ N, ∃ S pr positions, mkStark fuel p (2 ^ a) (2 ^ b) width width polys factor = .ok S ∧
      mkProof fuel blake friProve S W boundary = .ok pr ∧
      Utils.getPseudorandomIndices blake pr.lRoot (2 ^ a * 2 ^ b : Nat) (80 : Nat) (2 ^ b : Nat) = .ok positions ∧
      positions.length = 80 ∧
      ∀ (i : Nat) (pos : Int), positions[i]? = some pos → verifyAt blake S W boundary pr i pos.toNat = .ok () := by
  obtain ⟨N, hN⟩ := c.params factor
  refine ⟨max N (2 ^ a * 2 ^ b), fun fuel hf => ?_⟩
  obtain ⟨S, h1, hs, h3, rfl, h5, rfl, rfl, h8, h9, h11, h12, h13, h14⟩ := hN fuel (le_trans (le_max_left _ _) hf)
  obtain ⟨pr, positions, l, deg, -, m1, -, -, -, -, m2, m3, -, -, -, m4⟩ := honest_spec blake hbl c.modulus S h8 a b hs h3 c.steps c.ext c.size
    (by rw [h12.eq, hs, h3]) (by rw [h11, h3]) (by rw [h14, hs]) h5 c.width_pos c.width_lt c.wf c.count (by rw [h3]; exact hdeg)
    hW.columns (by rw [hs]; exact hW.entries) (by rw [hs]; exact hW.step) hW.start hout friProve (fun l deg _ _ _ => hfri l S.G2 _ _) fuel
    (by rw [hs, h3]; exact le_trans (le_max_right _ _) hf)
  rw [h9, h3] at m2
  exact ⟨S, pr, positions, h1, m1, m2, m3, m4⟩

/-- **C51**. The verifier raises nothing at a position exactly if the three opened branches authenticate leaves against the roots,
at positions `pos`, `pos + extension_factor` (cyclically) and `pos`, `x = G2^pos` is not the last step position, and the opened values
satisfy `P(g1 x) = f(P(x)) + Z(x) D(x)` and `P(x) = I(x) + (x-1)(x-last) B(x)` in every coordinate, where `I` is the line through the
input at `1` and the output at the last step position. -/
theorem C51_what_acceptance_means (blake : Bytes → Bytes) (S : Params (Zp p)) (W : List (List (Zp p)))
    (boundary : List (Nat × Nat × Zp p)) (pr : Proof φ) (i pos : Nat) (h1 : S.last ≠ 1) :
    verifyAt blake S W boundary pr i pos = .ok () ↔
      ∃ br1 br2 br3 leaf1 leaf2 leaf3, pr.branches[i * 3]? = some br1 ∧ pr.branches[i * 3 + 1]? = some br2 ∧
        pr.branches[i * 3 + 2]? = some br3 ∧ Merkle.verifyBranch blake pr.mRoot pos br1 = .ok leaf1 ∧
        Merkle.verifyBranch blake pr.mRoot ((pos + S.ext) % S.precision) br2 = .ok leaf2 ∧
        Merkle.verifyBranch blake pr.lRoot pos br3 = .ok leaf3 ∧ S.G2 ^ pos ≠ S.last ∧
        (∃ v, IsStep S.n S.width S.polys ((List.range S.width).map (blk leaf1)) v ∧ ∀ d, d < S.width → ∃ vd, v[d]? = some vd ∧
          blk leaf2 d = vd + ((S.G2 ^ pos) ^ S.steps - 1) / (S.G2 ^ pos - S.last) * blk leaf1 (S.width + d)) ∧
        ∀ d, d < S.width → ∃ i j inp col out, boundary[d]? = some (i, j, inp) ∧ W[d]? = some col ∧ col.getLast? = some out ∧
          ∃ I : (Zp p)[X], I.degree ≤ 1 ∧ I.eval 1 = inp ∧ I.eval S.last = out ∧
            blk leaf1 d = I.eval (S.G2 ^ pos) + (S.G2 ^ pos - 1) * (S.G2 ^ pos - S.last) * blk leaf1 (2 * S.width + d) :=
  verifyAt_iff blake S W boundary pr i pos h1

/-- **C51**, the whole verifier: `verify_proof` never returns `False`. It returns `True` exactly if the step polynomials have a degree,
the proximity test accepts and the check of C51 raises nothing at every one of the `spot_check_security_factor` positions drawn from
`l_root`, the `i`-th one against the `i`-th triple of branches; no position is a multiple of the extension factor. -/
theorem C51_all_positions (blake : Bytes → Bytes) (hbl : ∀ x, (blake x).length = 32)
    (friVerify : φ → Bytes → Zp p → Nat → Nat → Py Bool) (S : Params (Zp p)) (W : List (List (Zp p)))
    (boundary : List (Nat × Nat × Zp p)) (pr : Proof φ) (hn : 2 ≤ S.precision) (hn2 : S.precision < 2 ^ 24) (he : 2 ≤ S.ext) :
    verifyProof blake friVerify S W boundary pr ≠ .ok false ∧
    ∃ positions : List Nat, positions.length = S.factor ∧ (∀ pos ∈ positions, pos < S.precision ∧ ¬ S.ext ∣ pos) ∧
      Utils.getPseudorandomIndices blake pr.lRoot S.precision S.factor S.ext = .ok (positions.map Int.ofNat) ∧
      (verifyProof blake friVerify S W boundary pr = .ok true ↔
        (∃ deg, getDegree S.polys = .ok deg ∧ friVerify pr.fri pr.lRoot S.G2 (S.steps * deg) S.ext = .ok true) ∧
        ∀ (i : Nat) (h : i < positions.length), verifyAt blake S W boundary pr i positions[i] = .ok ()) := by
  refine ⟨fun h => by simpa using ((verifyProof_iff _ _ _ _ _ _ _).1 h).1, ?_⟩
  obtain ⟨o, h1, h2, h3⟩ := C36_indices_exclude blake hbl pr.lRoot S.precision S.factor S.ext (by exact_mod_cast hn) (by exact_mod_cast hn2)
    (by exact_mod_cast he)
  have hmap : (o.map Int.toNat).map Int.ofNat = o := by
    rw [List.map_map]
    conv_rhs => rw [← List.map_id o]
    refine List.map_congr_left fun x hx => ?_
    simpa using (h3 x hx).1
  refine ⟨o.map Int.toNat, by simpa using h2, ?_, by rw [hmap]; exact h1, ?_⟩
  · intro pos hpos
    obtain ⟨x, hx, rfl⟩ := List.mem_map.1 hpos
    obtain ⟨a1, a2, a3⟩ := h3 x hx
    refine ⟨by omega, fun hd => a3 ?_⟩
    have := Int.natCast_dvd_natCast.2 hd
    rwa [Int.toNat_of_nonneg a1] at this
  · rw [verifyProof_iff]
    constructor
    · rintro ⟨-, deg, positions, a1, a2, a3, a4⟩
      rw [h1] at a3
      cases a3
      refine ⟨⟨deg, a1, a2⟩, fun i hi => ?_⟩
      simp only [List.length_map] at hi
      simpa using a4 i o[i] (by simp [hi])
    · rintro ⟨⟨deg, a1, a2⟩, a4⟩
      refine ⟨rfl, deg, o, a1, a2, h1, fun i pos hi => ?_⟩
      obtain ⟨hi', rfl⟩ := List.getElem?_eq_some_iff.1 hi
      have := a4 i (by simpa using hi')
      rwa [List.getElem_map] at this

/-- On a domain of `n` points and for the bound `d`, a proximity test returns a proof for every polynomial of degree below `d`, committed
to by its values at the powers of `G`, and accepts that proof. -/
def FriComplete (blake : Bytes → Bytes) (n d e : Nat) (friProve : List (Zp p) → Zp p → Nat → Nat → Py φ)
    (friVerify : φ → Bytes → Zp p → Nat → Nat → Py Bool) : Prop :=
  ∀ (l : List (Zp p)) (G : Zp p) (tree : List Bytes) (root : Bytes), HasOrder G n → l.length ≤ n → (toPoly l).degree < d →
    Merkle.merkelize blake ((List.range n).map fun x => .elt (enc ((toPoly l).eval (G ^ x)))) = .ok tree → tree[1]? = some root →
    ∃ pf, friProve l G d e = .ok pf ∧ friVerify pf root G d e = .ok true

/-- `deg` is the greatest total degree of the step polynomials. -/
def IsDegree (width : Nat) (polys : List (Dict (Zp p))) (deg : Nat) : Prop :=
  (∃ f ∈ polys, (toMv width f).totalDegree = deg) ∧ ∀ f ∈ polys, (toMv width f).totalDegree ≤ deg

theorem getDegree_of {width : Nat} {polys : List (Dict (Zp p))} (hw : ∀ f ∈ polys, Mv.WF width f) {deg : Nat} (h : IsDegree width polys deg) :
    getDegree polys = .ok deg := by
  obtain ⟨⟨f, hf, h1⟩, h2⟩ := h
  have hne : polys.map Mv.degree ≠ [] := by
    intro h
    rw [List.map_eq_nil_iff] at h
    rw [h] at hf
    simp at hf
  obtain ⟨m, e1, e2, e3⟩ := pyMax_le hne
  have : m = deg := by
    apply le_antisymm
    · obtain ⟨g, hg, rfl⟩ := List.mem_map.1 e2
      rw [Mv.degree_eq (hw g hg)]
      exact h2 g hg
    · rw [← h1, ← Mv.degree_eq (hw f hf)]
      exact e3 _ (List.mem_map_of_mem hf)
  rw [← this]
  exact e1

/-- The tree over the values of a polynomial exists. -/
theorem values_tree (hp2 : p ≤ 2 ^ 256) (blake : Bytes → Bytes) (k : Nat) (hk : 2 ≤ k) (G : Zp p) (l : List (Zp p)) :
    ∃ tree root, Merkle.merkelize blake ((List.range (2 ^ k)).map fun x => .elt (enc ((toPoly l).eval (G ^ x)))) = .ok tree ∧
      tree[1]? = some root := by
  obtain ⟨tree, root, -, -, t1, t2, -⟩ := C30_merkle_completeness blake
    ((List.range (2 ^ k)).map fun x => .elt (enc ((toPoly l).eval (G ^ x)))) ((List.range (2 ^ k)).map fun x => encB ((toPoly l).eval (G ^ x)))
    k hk (by simp)
    (by
      rw [List.map_map, List.map_map]
      apply List.map_congr_left
      intro a _
      exact enc_eq hp2 _) 0 (by simp)
  exact ⟨tree, root, t1, t2⟩

/-- **C74**. Let the step polynomials have degree `deg ≤ extension_factor + 1`.  With a proximity test that is complete for
`steps * extension_factor` points and the bound `steps * deg`, and at most 80 spot checks, `verify_proof` accepts the proof that
`mk_proof` makes from a valid execution whose outputs are not zero.  `C74_smooth` (in `Props/SmoothFri`) takes the proximity test of
the repository for it. -/
theorem C74_completeness_partial (blake : Bytes → Bytes) (hbl : ∀ x, (blake x).length = 32) (a b width : Nat)
    (polys : List (Dict (Zp p))) (c : Computation p a b width polys) (deg : Nat) (hdeg : IsDegree width polys deg) (hdeg1 : 1 ≤ deg)
    (hdeg2 : deg ≤ 2 ^ b + 1)
    (boundary : List (Nat × Nat × Zp p)) (W : List (List (Zp p))) (hW : IsExecution width (2 ^ a) polys boundary W)
    (hout : ∀ col ∈ W, ∀ out, col.getLast? = some out → out ≠ 0) (factor : Nat) (hfac : factor ≤ 80) :
    ∃ N, ∀ fuel ≥ N, ∀ (friProve : List (Zp p) → Zp p → Nat → Nat → Py φ) (friVerify : φ → Bytes → Zp p → Nat → Nat → Py Bool),
      FriComplete blake (2 ^ a * 2 ^ b) (2 ^ a * deg) (2 ^ b) friProve friVerify →
      ∃ S pr, mkStark fuel p (2 ^ a) (2 ^ b) width width polys factor = .ok S ∧
        mkProof fuel blake friProve S W boundary = .ok pr ∧ verifyProof blake friVerify S W boundary pr = .ok true := by
  obtain ⟨N, hN⟩ := c.params factor
  refine ⟨max N (2 ^ a * 2 ^ b), fun fuel hf friProve friVerify hc => ?_⟩
  obtain ⟨S, h1, hs, h3, rfl, h5, rfl, rfl, h8, h9, h11, h12, h13, h14⟩ := hN fuel (le_trans (le_max_left _ _) hf)
  have hgd := getDegree_of c.wf hdeg
  obtain ⟨pr, positions, l, deg', g0, m1, g1, g2, g3, ⟨tree, g4, g5⟩, m2, m3, m5, m6, -, m4⟩ := honest_spec blake hbl c.modulus S h8 a b hs h3 c.steps
    c.ext c.size (by rw [h12.eq, hs, h3]) (by rw [h11, h3]) (by rw [h14, hs]) h5 c.width_pos c.width_lt c.wf c.count
    (by rw [h3]; exact fun f hf => (hdeg.2 f hf).trans hdeg2)
    hW.columns (by rw [hs]; exact hW.entries) (by rw [hs]; exact hW.step) hW.start hout friProve (fun l deg' hl hd hdl => by
      rw [hgd] at hd
      cases hd
      obtain ⟨tree, root, t1, t2⟩ := values_tree c.modulus blake (a + b) (by have := c.steps; have := c.ext; omega) S.G2 l
      rw [pow_add] at t1
      obtain ⟨pf, e1, -⟩ := hc l S.G2 tree root h12 (by rw [← hs, ← h3]; exact hl) (by rw [← hs]; exact hdl hdeg1) t1 t2
      exact ⟨pf, by rw [hs, h3]; exact e1⟩) fuel
    (by rw [hs, h3]; exact le_trans (le_max_right _ _) hf)
  rw [hgd] at g1
  cases g1
  refine ⟨S, pr, h1, m1, (verifyProof_iff _ _ _ _ _ _ _).2 ⟨rfl, deg, positions.take S.factor, hgd, ?_, ?_, ?_⟩⟩
  · obtain ⟨pf, e1, e2⟩ := hc l S.G2 tree pr.lRoot h12 (by rw [← hs, ← h3]; exact g0) (by rw [← hs]; exact g3 hdeg1) (by rw [← h9]; exact g4) g5
    rw [← hs, ← h3] at e1 e2
    rw [e1] at g2
    cases g2
    exact e2
  · have hprec : S.precision = 2 ^ (a + b) := by rw [h9, pow_add]
    have h2 : 2 ≤ 2 ^ (a + b) := by
      calc 2 = 2 ^ 1 := rfl
        _ ≤ _ := Nat.pow_le_pow_right (by omega) (by have := c.steps; omega)
    have h24 : 2 ^ (a + b) < 2 ^ 24 := Nat.pow_lt_pow_right (by omega) c.size
    have h2b : 2 ≤ 2 ^ b := by
      calc 2 = 2 ^ 1 := rfl
        _ ≤ _ := Nat.pow_le_pow_right (by omega) c.ext
    obtain ⟨o, o1, o2⟩ := C36_indices_prefix blake hbl pr.lRoot S.precision S.ext S.factor 80 (by rw [hprec]; exact_mod_cast h2)
      (by rw [hprec]; exact_mod_cast h24) (.inr (by rw [h3]; exact_mod_cast h2b)) hfac
    rw [m2] at o1
    cases o1
    exact o2
  · intro i pos hi
    rw [List.getElem?_take] at hi
    split at hi
    · exact m4 i pos hi
    · simp at hi

theorem bind_error_of_ok {α β : Type _} {x : Py α} {a : α} {f : α → Py β} {e : PyErr} (h : x = .ok a) (h2 : f a = .error e) :
    (x >>= f) = .error e := by
  rw [h]; exact h2

/-- **C74** fails with more than 80 spot checks: the prover always opens 80 positions, and the verifier then raises `IndexError`. -/
theorem C74_completeness_refuted (blake : Bytes → Bytes) (hbl : ∀ x, (blake x).length = 32) (a b width : Nat)
    (polys : List (Dict (Zp p))) (c : Computation p a b width polys) (hdeg : ∀ f ∈ polys, (toMv width f).totalDegree ≤ 2 ^ b + 1)
    (boundary : List (Nat × Nat × Zp p)) (W : List (List (Zp p))) (hW : IsExecution width (2 ^ a) polys boundary W)
    (hout : ∀ col ∈ W, ∀ out, col.getLast? = some out → out ≠ 0)
    (friProve : List (Zp p) → Zp p → Nat → Nat → Py φ) (hfri : ∀ l G d e, ∃ pf, friProve l G d e = .ok pf)
    (friVerify : φ → Bytes → Zp p → Nat → Nat → Py Bool) (hv : ∀ pf root G d e, friVerify pf root G d e = .ok true)
    (factor : Nat) (hfac : 80 < factor) :
    ∃ N, ∀ fuel ≥ N, ∃ S pr, mkStark fuel p (2 ^ a) (2 ^ b) width width polys factor = .ok S ∧
      mkProof fuel blake friProve S W boundary = .ok pr ∧ verifyProof blake friVerify S W boundary pr = .error .indexError := by
  obtain ⟨N, hN⟩ := c.params factor
  refine ⟨max N (2 ^ a * 2 ^ b), fun fuel hf => ?_⟩
  obtain ⟨S, h1, hs, h3, rfl, h5, rfl, rfl, h8, h9, h11, h12, h13, h14⟩ := hN fuel (le_trans (le_max_left _ _) hf)
  obtain ⟨pr, positions, l, deg, g0, m1, g1, g2, g3, ⟨tree, g4, g5⟩, m2, m3, m5, m6, -, m4⟩ := honest_spec blake hbl c.modulus S h8 a b hs h3 c.steps c.ext c.size
    (by rw [h12.eq, hs, h3]) (by rw [h11, h3]) (by rw [h14, hs]) h5 c.width_pos c.width_lt c.wf c.count (by rw [h3]; exact hdeg)
    hW.columns (by rw [hs]; exact hW.entries) (by rw [hs]; exact hW.step) hW.start hout friProve (fun l deg _ _ _ => hfri l S.G2 _ _) fuel
    (by rw [hs, h3]; exact le_trans (le_max_right _ _) hf)
  refine ⟨S, pr, h1, m1, ?_⟩
  have hprec : S.precision = 2 ^ (a + b) := by rw [h9, pow_add]
  have h2 : 2 ≤ 2 ^ (a + b) := by
    calc 2 = 2 ^ 1 := rfl
      _ ≤ _ := Nat.pow_le_pow_right (by omega) (by have := c.steps; omega)
  have h24 : 2 ^ (a + b) < 2 ^ 24 := Nat.pow_lt_pow_right (by omega) c.size
  have h2b : 2 ≤ 2 ^ b := by
    calc 2 = 2 ^ 1 := rfl
      _ ≤ _ := Nat.pow_le_pow_right (by omega) c.ext
  obtain ⟨o, o1, o2⟩ := C36_indices_prefix blake hbl pr.lRoot S.precision S.ext 80 S.factor (by rw [hprec]; exact_mod_cast h2)
    (by rw [hprec]; exact_mod_cast h24) (.inr (by rw [h3]; exact_mod_cast h2b)) hfac.le
  obtain ⟨o', o1', o3, -⟩ := C36_indices_exclude blake hbl pr.lRoot S.precision S.factor S.ext (by rw [hprec]; exact_mod_cast h2)
    (by rw [hprec]; exact_mod_cast h24) (by rw [h3]; exact_mod_cast h2b)
  rw [o1] at o1'
  cases o1'
  rw [m2] at o2
  have o4 : positions = o.take 80 := Except.ok.inj o2
  have hfail : ∀ i pos, 80 ≤ i → verifyAt blake S W boundary pr i pos = .error .indexError := by
    intro i pos hi
    have : pyIdx pr.branches (i * 3) = .error .indexError := by
      unfold pyIdx
      rw [List.getElem?_eq_none (by omega)]
    unfold verifyAt
    simp only [this, bind, Except.bind]
  have hmap : PolyUtils.pyMap (fun ip : Int × Nat => verifyAt blake S W boundary pr ip.2 ip.1.toNat) o.zipIdx = .error .indexError := by
    apply pyMap_fails
    · rintro ⟨pos, i⟩ hm
      have hi : o[i]? = some pos := by simpa using List.mem_zipIdx_iff_getElem?.1 hm
      by_cases h80 : i < 80
      · exact .inl ⟨(), m4 i pos (by rw [o4, List.getElem?_take, if_pos h80, hi])⟩
      · exact .inr (hfail i _ (by omega))
    · have h80 : 80 < o.length := by omega
      exact ⟨(o[80], 80), List.mem_zipIdx_iff_getElem?.2 (by simp [h80]), hfail 80 _ (by omega)⟩
  unfold verifyProof
  refine bind_error_of_ok g1 (bind_error_of_ok (hv _ _ _ _ _) (bind_error_of_ok (a := ()) rfl (bind_error_of_ok o1 ?_)))
  rw [hmap]
  rfl

/-- **C75** (what holds instead of soundness). The verifier never compares the committed combination with the committed trace,
remainder and boundary values (stark.py:375-381 is commented out).  So for every computation, every claimed input and every claimed
output there is a proof that `verify_proof` accepts, whose proximity part is an honest one about the zero polynomial. -/
theorem C75_forgery (blake : Bytes → Bytes) (hbl : ∀ x, (blake x).length = 32) (a b width : Nat)
    (polys : List (Dict (Zp p))) (c : Computation p a b width polys) (deg : Nat) (hdeg : IsDegree width polys deg)
    (boundary : List (Nat × Nat × Zp p)) (hbd : boundary.length = width)
    (W : List (List (Zp p))) (hWl : W.length = width) (hW : ∀ col ∈ W, col ≠ []) (factor : Nat) :
    ∃ N, ∀ fuel ≥ N, ∀ (friProve : List (Zp p) → Zp p → Nat → Nat → Py φ) (friVerify : φ → Bytes → Zp p → Nat → Nat → Py Bool),
      FriComplete blake (2 ^ a * 2 ^ b) (2 ^ a * deg) (2 ^ b) friProve friVerify →
      ∃ S pr, mkStark fuel p (2 ^ a) (2 ^ b) width width polys factor = .ok S ∧
        verifyProof blake friVerify S W boundary pr = .ok true := by
  obtain ⟨N, hN⟩ := c.params factor
  refine ⟨N, fun fuel hf friProve friVerify hc => ?_⟩
  obtain ⟨S, h1, hs, h3, rfl, h5, rfl, rfl, h8, h9, h11, h12, h13, h14⟩ := hN fuel hf
  obtain ⟨mRoot, lRoot, branches, tree, positions, f1, f2, f3, f4⟩ := forge (φ := φ) blake hbl c.modulus S a b hs h3 c.steps c.ext c.size
    (by rw [h12.eq, hs, h3]) (by rw [h11, h3]) (by rw [h14, hs]) h5 c.width_pos c.wf c.count (W := W) hWl.ge hW (boundary := boundary) hbd.ge
  have hgd := getDegree_of c.wf hdeg
  obtain ⟨pf, -, hpf⟩ := hc [] S.G2 tree lRoot h12 (by simp)
    (by rw [show toPoly ([] : List (Zp p)) = 0 from rfl, Polynomial.degree_zero]; exact WithBot.bot_lt_coe _)
    (by rw [← f1, h9]; simp only [show toPoly ([] : List (Zp p)) = 0 from rfl, Polynomial.eval_zero]) f2
  exact ⟨S, { mRoot, lRoot, branches, fri := pf }, h1,
    (verifyProof_iff _ _ _ _ _ _ _).2 ⟨rfl, deg, positions, hgd, by rw [hs, h3]; exact hpf, f3, f4 pf⟩⟩

/-- **C76**. Suppose the opened values are those of polynomials `P_d`, `D_d`, `B_d` (with at most `k`, `k'`, `k''` coefficients), and
the verifier accepts at more positions than the degrees involved.  Then the values of `P_d` at the powers of `G1` are an execution of
the step polynomials from the boundary input to the claimed output. -/
theorem C76_algebraic_soundness (blake : Bytes → Bytes) (S : Params (Zp p)) (hs : 2 ≤ S.steps) (he : 1 ≤ S.ext)
    (hG2 : HasOrder S.G2 (S.steps * S.ext)) (hG1 : S.G1 = S.G2 ^ S.ext) (hlast : S.last = S.G1 ^ (S.steps - 1)) (hn : S.n = S.width)
    (hw : ∀ f ∈ S.polys, Mv.WF S.width f) (hpl : S.width ≤ S.polys.length) (m : Nat)
    (hm : ∀ f ∈ S.polys, (toMv S.width f).totalDegree ≤ m)
    (W : List (List (Zp p))) (boundary : List (Nat × Nat × Zp p)) (pr : Proof φ)
    (P D B : List (List (Zp p))) (hP : P.length = S.width) (hD : D.length = S.width) (hB : B.length = S.width) (k k' k'' : Nat)
    (hPk : ∀ q ∈ P, q.length ≤ k) (hDk : ∀ q ∈ D, q.length ≤ k') (hBk : ∀ q ∈ B, q.length ≤ k'')
    (T : Finset Nat) (hT : ∀ pos ∈ T, pos < S.steps * S.ext) (hk1 : max 1 m * (k - 1) < T.card) (hk2 : S.steps - 1 + k' ≤ T.card)
    (hk3 : k'' + 2 ≤ T.card) (hk4 : k ≤ T.card)
    (hacc : ∀ pos ∈ T, ∃ i, verifyAt blake S W boundary pr i pos = .ok () ∧
      ∀ br1 br2 leaf1 leaf2, pr.branches[i * 3]? = some br1 → pr.branches[i * 3 + 1]? = some br2 →
        Merkle.verifyBranch blake pr.mRoot pos br1 = .ok leaf1 →
        Merkle.verifyBranch blake pr.mRoot ((pos + S.ext) % S.precision) br2 = .ok leaf2 →
        ∀ (d : Nat) (Pd Dd Bd : List (Zp p)), P[d]? = some Pd → D[d]? = some Dd → B[d]? = some Bd →
          blk leaf1 d = (toPoly Pd).eval (S.G2 ^ pos) ∧ blk leaf1 (S.width + d) = (toPoly Dd).eval (S.G2 ^ pos) ∧
          blk leaf1 (2 * S.width + d) = (toPoly Bd).eval (S.G2 ^ pos) ∧
          blk leaf2 d = (toPoly Pd).eval (S.G2 ^ ((pos + S.ext) % S.precision))) :
    (∀ i, i + 1 < S.steps → IsStep S.width S.width S.polys (P.map fun q => (toPoly q).eval (S.G1 ^ i))
      (P.map fun q => (toPoly q).eval (S.G1 ^ (i + 1)))) ∧
    ∀ d, d < S.width → ∃ Pd i j inp col out, P[d]? = some Pd ∧ boundary[d]? = some (i, j, inp) ∧ (toPoly Pd).eval 1 = inp ∧
      W[d]? = some col ∧ col.getLast? = some out ∧ (toPoly Pd).eval (S.G1 ^ (S.steps - 1)) = out := by
  have h0 : 0 < S.steps * S.ext := Nat.mul_pos (by omega) (by omega)
  have hg1 : orderOf S.G1 = S.steps := by
    rw [hG1, orderOf_pow' _ (by omega), hG2.eq, Nat.gcd_eq_right (Nat.dvd_mul_left _ _), Nat.mul_div_cancel _ (by omega)]
  have hl1 : S.last ≠ 1 := by
    rw [hlast]
    intro h
    have := Nat.le_of_dvd (by omega) (orderOf_dvd_of_pow_eq_one h)
    omega
  refine executes_of_passes S hs he hG2 hG1 hlast hn hw hpl m hm W boundary P D B hP hD hB k k' k'' hPk hDk hBk T hT hk1 hk2 hk3 hk4
    fun pos hpos => ?_
  obtain ⟨i, hv, hop⟩ := hacc pos hpos
  exact passesAt_of_verifyAt blake S hl1 W boundary P D B hP hD hB pr i pos hv hop

/-! ### The concrete case of `Props/Stark` -/

theorem sq_computation : Computation 17 2 2 1 sqStep := by
  refine ⟨by norm_num, by norm_num, by norm_num, by norm_num, ⟨by norm_num, by decide +kernel, ?_⟩, by norm_num, by norm_num,
    by decide, sq_wf⟩
  intro j h1 h2
  norm_num at h2
  interval_cases j <;> decide +kernel

theorem sq_degree : ∀ f ∈ sqStep, (toMv 1 f).totalDegree = 2 := by
  intro f hf
  rw [← Mv.degree_eq (sq_wf f hf)]
  simp only [sqStep, List.mem_singleton] at hf
  subst hf
  rfl

theorem sq_isDegree : IsDegree 1 sqStep 2 :=
  ⟨⟨_, List.mem_singleton.2 rfl, sq_degree _ (List.mem_singleton.2 rfl)⟩, fun f hf => (sq_degree f hf).le⟩

/-- The hypotheses of C50 and C74 hold. This meets the hypotheses of `C50_spot_checks_partial`, `C74_completeness_partial`, `C74_completeness_refuted`, `C75_forgery`. -/
example : Computation 17 2 2 1 sqStep ∧ (∀ f ∈ sqStep, (toMv 1 f).totalDegree ≤ 2 ^ 2 + 1) ∧
    IsDegree 1 sqStep 2 ∧ IsExecution 1 (2 ^ 2) sqStep sqB sqW ∧
    (∀ col ∈ sqW, ∀ out, col.getLast? = some out → out ≠ 0) ∧ (∀ x, (sqHash x).length = 32) ∧
    FriComplete (p := 17) (φ := Unit) sqHash (2 ^ 2 * 2 ^ 2) (2 ^ 2 * 2) (2 ^ 2) (fun _ _ _ _ => .ok ()) fun _ _ _ _ _ => .ok true :=
  ⟨sq_computation, fun f hf => by rw [sq_degree f hf]; norm_num, sq_isDegree,
    sq_execution, by
      simp only [sqW, List.mem_singleton, forall_eq]
      intro out h
      simp at h
      subst h
      decide +kernel, sqHash_length, fun _ _ _ _ _ _ _ _ _ => ⟨(), rfl, rfl⟩⟩

/-- This meets the hypotheses of `C51_what_acceptance_means`, `C51_all_positions`. -/
example : (do
    let S ← mkStark (K := Zp 17) 100 17 4 4 1 1 sqStep 10
    let pr ← mkProof 100 sqHash (fun _ _ _ _ => .ok ()) S sqW sqB
    verifyProof sqHash (fun _ _ _ _ _ => .ok true) S sqW sqB pr : Py Bool) = .ok true := by decide +kernel

/-- C51: a proof whose branches are those of another position is rejected. -/
example : (do
    let S ← mkStark (K := Zp 17) 100 17 4 4 1 1 sqStep 10
    let pr ← mkProof 100 sqHash (fun _ _ _ _ => .ok ()) S sqW sqB
    verifyProof sqHash (fun _ _ _ _ _ => .ok true) S sqW sqB { pr with branches := pr.branches.drop 3 } : Py Bool) =
      .error .assertion := by decide +kernel

/-- C51: the honest proof is rejected for another output. -/
example : (do
    let S ← mkStark (K := Zp 17) 100 17 4 4 1 1 sqStep 10
    let pr ← mkProof 100 sqHash (fun _ _ _ _ => .ok ()) S sqW sqB
    verifyProof sqHash (fun _ _ _ _ _ => .ok true) S [[1, 2, 5, 3]] sqB pr : Py Bool) =
      .error .assertion := by decide +kernel

/-- **C75** fails: four steps of `x ↦ x² + 1` from 1 modulo 17 end in 9, but for any complete proximity test there is an accepted proof
that they end in 3. -/
theorem C75_soundness_refuted :
    (∃ N, ∀ fuel ≥ N, ∀ (friProve : List (Zp 17) → Zp 17 → Nat → Nat → Py φ) (friVerify : φ → Bytes → Zp 17 → Nat → Nat → Py Bool),
      FriComplete sqHash (2 ^ 2 * 2 ^ 2) (2 ^ 2 * 2) (2 ^ 2) friProve friVerify →
      ∃ S pr, mkStark fuel 17 (2 ^ 2) (2 ^ 2) 1 1 sqStep 80 = .ok S ∧ verifyProof sqHash friVerify S [[1, 2, 5, 3]] sqB pr = .ok true) ∧
    ¬ ∃ col, IsExecution 1 4 sqStep sqB [col] ∧ col.getLast? = some 3 := by
  refine ⟨C75_forgery sqHash sqHash_length 2 2 1 sqStep sq_computation 2 sq_isDegree sqB rfl [[1, 2, 5, 3]] rfl (by simp) 80, ?_⟩
  rintro ⟨col, h, h3⟩
  have hl := h.entries col (by simp)
  match col, hl with
  | [x0, x1, x2, x3], _ =>
    obtain ⟨i, j, inp, e1, e2⟩ := h.start 0 _ rfl
    simp [sqB] at e1 e2 h3
    have s0 := (nextState_iff _ _ _ _ _).2 (h.step 0 (by norm_num))
    have s1 := (nextState_iff _ _ _ _ _).2 (h.step 1 (by norm_num))
    have s2 := (nextState_iff _ _ _ _ _).2 (h.step 2 (by norm_num))
    obtain ⟨-, -, rfl⟩ := e1
    subst e2 h3
    have f0 : nextState 1 1 sqStep (wrow [[(1 : Zp 17), x1, x2, 3]] 0) = .ok [2] := by
      show nextState 1 1 sqStep [(1 : Zp 17)] = .ok [2]
      decide +kernel
    rw [f0] at s0
    have g0 : x1 = 2 := by
      have := Except.ok.inj s0
      simpa [wrow] using this.symm
    subst g0
    have f1 : nextState 1 1 sqStep (wrow [[(1 : Zp 17), 2, x2, 3]] 1) = .ok [5] := by
      show nextState 1 1 sqStep [(2 : Zp 17)] = .ok [5]
      decide +kernel
    rw [f1] at s1
    have g1 : x2 = 5 := by
      have := Except.ok.inj s1
      simpa [wrow] using this.symm
    subst g1
    revert s2
    decide +kernel

/-- The hypotheses of C76 hold of the honest proof, at eight of its positions. -/
def sqOpens (S : Params (Zp 17)) (pr : Proof Unit) (i pos : Nat) : Bool :=
  match pr.branches[i * 3]?, pr.branches[i * 3 + 1]? with
  | some b1, some b2 =>
    match Merkle.verifyBranch sqHash pr.mRoot pos b1, Merkle.verifyBranch sqHash pr.mRoot ((pos + S.ext) % S.precision) b2 with
    | .ok l1, .ok l2 => decide (blk l1 0 = call ([0, 6, 3, 9] : List (Zp 17)) (S.G2 ^ pos) ∧ blk l1 1 = call ([4, 7, 13, 4] : List (Zp 17)) (S.G2 ^ pos) ∧
        blk l1 2 = call ([10, 9] : List (Zp 17)) (S.G2 ^ pos) ∧ blk l2 0 = call ([0, 6, 3, 9] : List (Zp 17)) (S.G2 ^ ((pos + S.ext) % S.precision)))
    | _, _ => false
  | _, _ => false

example : ∃ (S : Params (Zp 17)) (pr : Proof Unit) (P D B : List (Zp 17)), S.steps = 4 ∧ S.ext = 4 ∧ S.width = 1 ∧ S.G2 = 7 ∧
    P.length ≤ 4 ∧ D.length ≤ 4 ∧ B.length ≤ 2 ∧ max 1 2 * (4 - 1) < 8 ∧ S.steps - 1 + 4 ≤ 8 ∧ 2 + 2 ≤ 8 ∧
    ∀ pos ∈ ({1, 7, 14, 3, 11, 15, 2, 6} : Finset Nat), ∃ i, verifyAt sqHash S sqW sqB pr i pos = .ok () ∧
      ∀ br1 br2 leaf1 leaf2, pr.branches[i * 3]? = some br1 → pr.branches[i * 3 + 1]? = some br2 →
        Merkle.verifyBranch sqHash pr.mRoot pos br1 = .ok leaf1 →
        Merkle.verifyBranch sqHash pr.mRoot ((pos + S.ext) % S.precision) br2 = .ok leaf2 →
        blk leaf1 0 = (toPoly P).eval (S.G2 ^ pos) ∧ blk leaf1 1 = (toPoly D).eval (S.G2 ^ pos) ∧
          blk leaf1 2 = (toPoly B).eval (S.G2 ^ pos) ∧ blk leaf2 0 = (toPoly P).eval (S.G2 ^ ((pos + S.ext) % S.precision)) := by
  have hrun : ∃ S pr, mkStark (K := Zp 17) 100 17 4 4 1 1 sqStep 10 = .ok S ∧
      mkProof 100 sqHash (fun _ _ _ _ => .ok ()) S sqW sqB = .ok pr := by
    have h : (do
      let S ← mkStark (K := Zp 17) 100 17 4 4 1 1 sqStep 10
      let pr ← mkProof 100 sqHash (fun _ _ _ _ => .ok ()) S sqW sqB
      .ok pr.branches.length : Py Nat) = .ok 240 := by decide +kernel
    simp only [bind_iff] at h
    obtain ⟨S, h1, pr, h2, -⟩ := h
    exact ⟨S, pr, h1, h2⟩
  obtain ⟨S, pr, h1, h2⟩ := hrun
  have hall : ∀ x ∈ ([(1, 0), (7, 5), (14, 6), (3, 7), (11, 21), (15, 23), (2, 28), (6, 29)] : List (Nat × Nat)), (do
      let S ← mkStark (K := Zp 17) 100 17 4 4 1 1 sqStep 10
      let pr ← mkProof 100 sqHash (fun _ _ _ _ => .ok ()) S sqW sqB
      let _ ← verifyAt sqHash S sqW sqB pr x.2 x.1
      .ok (decide (S.steps = 4 ∧ S.ext = 4 ∧ S.width = 1 ∧ S.G2 = 7) && sqOpens S pr x.2 x.1) : Py Bool) = .ok true := by decide +kernel
  have hall' : ∀ x ∈ ([(1, 0), (7, 5), (14, 6), (3, 7), (11, 21), (15, 23), (2, 28), (6, 29)] : List (Nat × Nat)),
      verifyAt sqHash S sqW sqB pr x.2 x.1 = .ok () ∧ (S.steps = 4 ∧ S.ext = 4 ∧ S.width = 1 ∧ S.G2 = 7) ∧ sqOpens S pr x.2 x.1 = true := by
    intro x hx
    have := hall x hx
    simp only [bind_iff, Except.ok.injEq, Bool.and_eq_true, decide_eq_true_eq] at this
    obtain ⟨S', e1, pr', e2, u, e3, e4⟩ := this
    rw [h1] at e1
    cases e1
    rw [h2] at e2
    cases e2
    exact ⟨e3, e4⟩
  obtain ⟨-, ⟨q1, q2, q3, q4⟩, -⟩ := hall' (1, 0) (by simp)
  refine ⟨S, pr, [0, 6, 3, 9], [4, 7, 13, 4], [10, 9], q1, q2, q3, q4, by simp, by simp, by simp, by norm_num, by rw [q1]; norm_num, by norm_num, ?_⟩
  intro pos hpos
  have hex : ∃ i, (pos, i) ∈ ([(1, 0), (7, 5), (14, 6), (3, 7), (11, 21), (15, 23), (2, 28), (6, 29)] : List (Nat × Nat)) := by
    simp only [Finset.mem_insert, Finset.mem_singleton] at hpos
    rcases hpos with rfl | rfl | rfl | rfl | rfl | rfl | rfl | rfl <;> simp
  obtain ⟨i, hi⟩ := hex
  obtain ⟨v, -, o⟩ := hall' _ hi
  refine ⟨i, v, fun br1 br2 leaf1 leaf2 a1 a2 a3 a4 => ?_⟩
  simp only [sqOpens, a1, a2, a3, a4, decide_eq_true_eq, PolyUtils.call_eq_eval] at o
  exact o

end

end Verif.Props
