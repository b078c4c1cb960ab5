import Verif.Proofs.GeneratedProofs
import Verif.Props.Compression
import Verif.Props.SmoothFri
/-!
# C130: compression of the proofs the code makes

`prove` is `SmoothSubgroupFRI.generate_proximity_proof`; `compressFri`, `decompressFri` are `compress_fri`, `decompress_fri`.  The round trip
of `C33_compress_fri_roundtrip` asks for objects the format can carry and for at most 65536 entries.  A proof that `prove` returns
always meets the first condition, and the second is decided by the parameters.  The same for the branches of a STARK proof made by
`mk_proof`, with `compress_branches`.
-/

namespace Verif.Props
open Verif.Poly Verif.Mv Verif.Stark Verif.Compression Verif.SmoothFri

variable {p : Nat} [hp : Fact p.Prime]

theorem clean_of_length {x : Bytes} (h : x.length = 32) : Clean x := by
  refine ⟨by omega, fun c _ hx => ?_⟩
  rw [hx, List.length_replicate] at h
  omega

/-- **C130** (generated proofs). Whatever the polynomial, the generator, the bound and the number of positions, and with any hash of 32
bytes: a proof that `prove` returns holds only byte strings of 32 bytes, so if it has at most 65536 entries it is compressed without an
exception and decompressing gives it back. -/
theorem C130_fri (blake : Bytes → Bytes) (hbl : ∀ x, (blake x).length = 32) (fuel : Nat) (f : List (Zp p)) (w : Zp p) (d e F : Nat)
    (prf : List (Bytes × List (List (List Bytes))) × List Bytes) (h : prove fuel blake f w d e F = .ok prf) :
    (∀ x ∈ friObjects prf, x.length = 32) ∧
      (friCount prf ≤ 65536 → ∃ c, compressFri prf = .ok c ∧ decompressFri c = .ok prf) := by
  have h32 := proveRec_sized blake hbl fuel e _ f w d F prf h
  exact ⟨h32, C33_compress_fri_roundtrip prf fun x hx => clean_of_length (h32 x hx)⟩

/-- **C130** (size). The number of entries depends on the parameters only. -/
theorem C130_fri_size (hp2 : p ≤ 2 ^ 256) (blake : Bytes → Bytes) (hbl : ∀ x, (blake x).length = 32) (w : Zp p) (k : Nat)
    (hk : 2 ≤ k) (hk2 : k < 26) (hw : HasOrder w (2 ^ k)) (fuel : Nat) (hfuel : 2 ^ k ≤ fuel) (f : List (Zp p)) (hl : f.length ≤ 2 ^ k)
    (d : Nat) (hd : d ≤ 2 ^ k) (e : Nat) (he : e = 0 ∨ 2 ≤ e) (F : Nat)
    (prf : List (Bytes × List (List (List Bytes))) × List Bytes) (h : prove fuel blake f w d e F = .ok prf) :
    friCount prf = proofEntries k d F :=
  proveRec_count hp2 blake hbl fuel e he _ f w d k F prf hk hk2 hw.eq hfuel hl hd h

theorem proofEntries_le : ∀ (d k F : Nat), F ≤ 40 → d ≤ 2 ^ k → 2 ^ k ≤ 1024 * (d + 1) → proofEntries k d F ≤ 50 * k ^ 2 + 281 * k + 17409 := by
  intro d
  induction d using Nat.strong_induction_on with
  | _ d ih =>
    intro k F hF hd hc
    rw [proofEntries]
    split
    · rename_i h16
      nlinarith
    · rename_i h16
      have hk : 5 ≤ k := by
        by_contra hlt
        have : 2 ^ k ≤ 2 ^ 4 := Nat.pow_le_pow_right (by norm_num) (by omega)
        omega
      obtain ⟨m, rfl⟩ := Nat.exists_eq_add_of_le hk
      have e1 : 2 ^ (5 + m) = 4 * 2 ^ (5 + m - 2) := by
        rw [show 5 + m = (5 + m - 2) + 2 by omega, pow_add]
        simp [mul_comm]
      have := ih (d / 4) (by omega) (5 + m - 2) 40 le_rfl (by omega) (by omega)
      have h2 : F * (1 + (5 + m + 4 * (5 + m + 2))) ≤ 40 * (1 + (5 + m + 4 * (5 + m + 2))) := Nat.mul_le_mul_right _ hF
      have e2 : 5 + m - 2 = 3 + m := by omega
      rw [e2] at this ⊢
      nlinarith

/-- **C130** (expansion at most 1024). With at most 40 positions, a domain of `2^k` points (`k < 26`) and a bound `d` with
`2^k ≤ 1024 * (d + 1)`, every proof that `prove` returns is compressed without an exception and decompresses to itself. -/
theorem C130_fri_partial (hp2 : p ≤ 2 ^ 256) (blake : Bytes → Bytes) (hbl : ∀ x, (blake x).length = 32) (w : Zp p) (k : Nat)
    (hk : 2 ≤ k) (hk2 : k < 26) (hw : HasOrder w (2 ^ k)) (fuel : Nat) (hfuel : 2 ^ k ≤ fuel) (f : List (Zp p)) (hl : f.length ≤ 2 ^ k)
    (d : Nat) (hd : d ≤ 2 ^ k) (hc : 2 ^ k ≤ 1024 * (d + 1)) (e : Nat) (he : e = 0 ∨ 2 ≤ e) (F : Nat) (hF : F ≤ 40)
    (prf : List (Bytes × List (List (List Bytes))) × List Bytes) (h : prove fuel blake f w d e F = .ok prf) :
    ∃ c, compressFri prf = .ok c ∧ decompressFri c = .ok prf := by
  refine (C130_fri blake hbl fuel f w d e F prf h).2 ?_
  rw [C130_fri_size hp2 blake hbl w k hk hk2 hw fuel hfuel f hl d hd e he F prf h]
  refine le_trans (proofEntries_le d k F hF hd hc) ?_
  have : k ^ 2 ≤ 25 ^ 2 := Nat.pow_le_pow_left (by omega) 2
  omega

theorem clean_of_dvd {x : Bytes} (h : 32 ∣ x.length) : Clean x := by
  refine ⟨by omega, fun c _ hx => ?_⟩
  rw [hx, List.length_replicate] at h
  omega

/-- **C130** (generated branches). Whatever the computation, the witness and the boundary, and with any proximity test and any hash of 32
bytes: the branches of a proof that `mk_proof` returns hold only byte strings whose length is a multiple of 32, so if they have at most
65536 entries they are compressed without an exception and decompressing gives them back. -/
theorem C130_branches {φ : Type _} (blake : Bytes → Bytes) (hbl : ∀ x, (blake x).length = 32) (fuel : Nat)
    (friProve : List (Zp p) → Zp p → Nat → Nat → Py φ) (S : Params (Zp p)) (W : List (List (Zp p))) (boundary : List (Nat × Nat × Zp p))
    (pr : Proof φ) (h : mkProof fuel blake friProve S W boundary = .ok pr) :
    (∀ b ∈ pr.branches, ∀ x ∈ b, 32 ∣ x.length) ∧
      ((pr.branches.map fun b => b.length + 1).sum ≤ 65536 →
        ∃ c, compressBranches pr.branches = .ok c ∧ decompressBranches c = .ok pr.branches) := by
  have h32 := mkProof_sized blake hbl fuel friProve S W boundary pr h
  exact ⟨h32, C34_compress_branches_roundtrip _ fun b hb x hx => clean_of_dvd (h32 b hb x hx)⟩

theorem sum_le_of_length {l : List (List Bytes)} {n : Nat} (h : ∀ b ∈ l, b.length = n) : (l.map fun b => b.length + 1).sum = l.length * (n + 1) := by
  induction l with
  | nil => simp
  | cons a l ih =>
    rw [List.map_cons, List.sum_cons, ih fun b hb => h b (by simp [hb]), h a (by simp), List.length_cons]
    ring

/-- The proof made of a valid execution: its branches, and the proof of proximity in it. -/
theorem stark_generated (blake : Bytes → Bytes) (hbl : ∀ x, (blake x).length = 32) (a b width : Nat)
    (polys : List (Dict (Zp p))) (c : Computation p a b width polys) (deg : Nat) (hdeg : IsDegree width polys deg) (hdeg1 : 1 ≤ deg)
    (hdeg2 : deg ≤ 2 ^ b) (hq : deg ≤ 8 ∨ ∃ r j, 2 ^ a * deg = r * 4 ^ j ∧ r ≤ 16)
    (boundary : List (Nat × Nat × Zp p)) (W : List (List (Zp p))) (hW : IsExecution width (2 ^ a) polys boundary W)
    (hout : ∀ col ∈ W, ∀ out, col.getLast? = some out → out ≠ 0) (factor : Nat) :
    ∃ N, ∀ fuel ≥ N, ∃ S pr l, mkStark fuel p (2 ^ a) (2 ^ b) width width polys factor = .ok S ∧
      mkProof fuel blake (fun f w d e => prove fuel blake f w d e 40) S W boundary = .ok pr ∧
      pr.branches.length = 240 ∧ (∀ br ∈ pr.branches, br.length = a + b + 1) ∧ HasOrder S.G2 (2 ^ (a + b)) ∧ 2 ^ (a + b) ≤ fuel ∧
      l.length ≤ 2 ^ (a + b) ∧ prove fuel blake l S.G2 (2 ^ a * deg) (2 ^ b) 40 = .ok pr.fri ∧ 2 ^ a * deg ≤ 2 ^ (a + b) ∧
      S.factor = factor := by
  have hQ : Quarters (2 ^ a * deg) := by
    rcases hq with h8 | h
    · obtain ⟨j, rfl | rfl⟩ := a.even_or_odd'
      · exact ⟨deg, j, by rw [pow_mul, show (2 : Nat) ^ 2 = 4 from rfl, mul_comm], by omega⟩
      · exact ⟨2 * deg, j, by rw [pow_succ, pow_mul, show (2 : Nat) ^ 2 = 4 from rfl]; ring, by omega⟩
    · exact h
  obtain ⟨N, hN⟩ := c.params factor
  refine ⟨max N (2 ^ a * 2 ^ b), fun fuel hf => ?_⟩
  obtain ⟨S, h1, hs, h3, rfl, h5, rfl, rfl, h8, h9, h11, h12, h13, h14⟩ := hN fuel (le_trans (le_max_left _ _) hf)
  have hgd := getDegree_of c.wf hdeg
  have hb2 : 2 ≤ 2 ^ b := by
    calc 2 = 2 ^ 1 := rfl
      _ ≤ _ := Nat.pow_le_pow_right (by omega) c.ext
  have hab : 2 ≤ a + b := by have := c.steps; have := c.ext; omega
  have hab2 : a + b < 26 := by have := c.size; omega
  have hfuel : 2 ^ (a + b) ≤ fuel := by rw [pow_add]; exact le_trans (le_max_right _ _) hf
  have h12' : HasOrder S.G2 (2 ^ (a + b)) := by rw [pow_add]; exact h12
  have hdle : 2 ^ a * deg ≤ 2 ^ (a + b) := by rw [pow_add]; exact Nat.mul_le_mul_left _ hdeg2
  obtain ⟨pr, positions, l, deg', g0, m1, g1, g2, -, -, -, -, -, m6, m7, -⟩ := honest_spec blake hbl c.modulus S h8 a b hs h3 c.steps
    c.ext c.size (by rw [h12.eq, hs, h3]) (by rw [h11, h3]) (by rw [h14, hs]) h5 c.width_pos c.width_lt c.wf c.count
    (by rw [h3]; exact fun f hf => (hdeg.2 f hf).trans (by omega))
    hW.columns (by rw [hs]; exact hW.entries) (by rw [hs]; exact hW.step) hW.start hout (fun f w d e => prove fuel blake f w d e 40)
    (fun l deg' hl hd hdl => by
      rw [hgd] at hd
      cases hd
      obtain ⟨tree, root, t1, t2⟩ := values_tree c.modulus blake (a + b) hab S.G2 l
      rw [hs, h3] at hl
      rw [← pow_add] at hl
      obtain ⟨pf, e1, -⟩ := complete c.modulus blake hbl S.G2 (a + b) hab hab2 h12'.eq fuel hfuel l hl _ hdle hQ
        (by rw [← hs]; exact hdl hdeg1) _ (.inr hb2) 40 40 (fun _ => le_rfl) (fun _ => le_rfl) tree root
        (by rw [FFT.dft, List.map_map]; exact t1) t2
      exact ⟨pf, by rw [hs, h3]; exact e1⟩) fuel
    (by rw [hs, h3]; exact le_trans (le_max_right _ _) hf)
  rw [hgd] at g1
  cases g1
  rw [hs, h3] at g0 g2
  exact ⟨S, pr, l, h1, m1, m6, m7, h12', hfuel, by rw [pow_add]; exact g0, g2, hdle, rfl⟩

/-- **C130**, end to end. Take a valid execution whose outputs are not zero, as in `C74_smooth`.  The proof made of it has 240 branches that go
through compression unchanged, whatever the parameters, and if the extension factor is at most `1024 * deg` so does its proof of
proximity. -/
theorem C130_stark_partial (blake : Bytes → Bytes) (hbl : ∀ x, (blake x).length = 32) (a b width : Nat)
    (polys : List (Dict (Zp p))) (c : Computation p a b width polys) (deg : Nat) (hdeg : IsDegree width polys deg) (hdeg1 : 1 ≤ deg)
    (hdeg2 : deg ≤ 2 ^ b) (hq : deg ≤ 8 ∨ ∃ r j, 2 ^ a * deg = r * 4 ^ j ∧ r ≤ 16)
    (boundary : List (Nat × Nat × Zp p)) (W : List (List (Zp p))) (hW : IsExecution width (2 ^ a) polys boundary W)
    (hout : ∀ col ∈ W, ∀ out, col.getLast? = some out → out ≠ 0) (factor : Nat) :
    ∃ N, ∀ fuel ≥ N, ∃ S pr, mkStark fuel p (2 ^ a) (2 ^ b) width width polys factor = .ok S ∧
      mkProof fuel blake (fun f w d e => prove fuel blake f w d e 40) S W boundary = .ok pr ∧
      pr.branches.length = 240 ∧
      (∃ z, compressBranches pr.branches = .ok z ∧ decompressBranches z = .ok pr.branches) ∧
      (2 ^ b ≤ 1024 * deg → ∃ z, compressFri pr.fri = .ok z ∧ decompressFri z = .ok pr.fri) := by
  obtain ⟨N, hN⟩ := stark_generated blake hbl a b width polys c deg hdeg hdeg1 hdeg2 hq boundary W hW hout factor
  refine ⟨N, fun fuel hf => ?_⟩
  obtain ⟨S, pr, l, h1, m1, m6, m7, h12, hfuel, g0, g2, hdle, -⟩ := hN fuel hf
  have hab : 2 ≤ a + b := by have := c.steps; have := c.ext; omega
  have hab2 : a + b < 26 := by have := c.size; omega
  have hb2 : 2 ≤ 2 ^ b := by
    calc 2 = 2 ^ 1 := rfl
      _ ≤ _ := Nat.pow_le_pow_right (by omega) c.ext
  refine ⟨S, pr, h1, m1, m6, (C130_branches blake hbl fuel _ S W boundary pr m1).2 ?_, fun hc => ?_⟩
  · rw [sum_le_of_length m7, m6]
    have := c.size
    omega
  · refine C130_fri_partial c.modulus blake hbl S.G2 (a + b) hab hab2 h12 fuel hfuel l g0 _ hdle ?_ _ (.inr hb2) 40 le_rfl _ g2
    have := Nat.mul_le_mul_left (2 ^ a) hc
    rw [pow_add]
    nlinarith

theorem encB_inj (hp2 : p ≤ 2 ^ 256) {a b : Zp p} (h : encB a = encB b) : a = b := by
  rw [← dec_encB hp2 a, h, dec_encB hp2]

theorem eval_square (x : Zp p) : (toPoly [0, 0, 1]).eval x = x ^ 2 := by
  simp [toPoly, Finset.sum_range_succ]

/-- **C130** fails for large domains with a small bound: from `2^18` points on, the proof that `X^2` has degree below 3 is made, but compressing it
raises `OverflowError`, because its values repeat after more than 65536 entries. -/
theorem C130_fri_refuted (hp2 : p ≤ 2 ^ 256) (blake : Bytes → Bytes) (w : Zp p) (k : Nat) (hk : 18 ≤ k) (hw : HasOrder w (2 ^ k))
    (fuel : Nat) (hfuel : 2 ^ k ≤ fuel) (e F : Nat) :
    ∃ prf, prove fuel blake [0, 0, 1] w 3 e F = .ok prf ∧ compressFri prf = .error .overflow := by
  have h18 : 2 ^ 18 ≤ 2 ^ k := Nat.pow_le_pow_right (by norm_num) hk
  refine ⟨_, prove_base hp2 blake fuel w k hw.eq hfuel [0, 0, 1] (by simp; omega) 3 (by norm_num) e F 3, compressFri_overflow _ ?_⟩
  rw [friEntries_eq]
  have hval : ∀ i, i < 2 ^ k → ((FFT.dft w (2 ^ k) [0, 0, 1]).map encB)[i]? = some (encB (w ^ (2 * i))) := by
    intro i hi
    rw [List.getElem?_map, FFT.dft_getElem? _ _ _ _ hi, Option.map_some]
    rw [eval_square, mul_comm 2 i, pow_mul]
  generalize (FFT.dft w (2 ^ k) [0, 0, 1]).map encB = V at hval
  show ¬ Referable (slash :: V)
  have hdbl : 2 ^ k = 2 * 2 ^ (k - 1) := by rw [← pow_succ']; congr 1; omega
  intro h
  have h1 := h (1 + (65535 + 2 ^ (k - 1))) (encB (w ^ (2 * 65535))) (by
    rw [Nat.add_comm 1, List.getElem?_cons_succ, hval _ (by omega), mul_add, ← hdbl, pow_add, hw.2.1, mul_one]) (by
    rw [List.mem_take_iff_getElem]
    have hlen : 65535 < V.length := (List.getElem?_eq_some_iff.1 (hval 65535 (by omega))).1
    refine ⟨65536, by rw [List.length_cons]; omega, ?_⟩
    rw [List.getElem_cons_succ]
    exact (List.getElem?_eq_some_iff.1 (hval 65535 (by omega))).2)
  rw [List.mem_take_iff_getElem] at h1
  obtain ⟨j, hj, he⟩ := h1
  cases j with
  | zero =>
    rw [List.getElem_cons_zero] at he
    have := congrArg List.length he
    rw [encB_length] at this
    cases this
  | succ j =>
    rw [List.getElem_cons_succ] at he
    have h2 : j < 65535 := by omega
    have h3 := (List.getElem?_eq_some_iff.1 (hval j (by omega))).2
    rw [he] at h3
    have := pow_inj_of_order hw.eq _ _ (by omega) (by omega) (encB_inj hp2 h3)
    omega

/-- A proof with one layer and one position, for 32 points and the bound 20: 45 entries, and it goes through compression. This meets the hypotheses
of `C130_fri`, `C130_fri_size`, `C130_fri_partial`. -/
example : (∀ x, (sqHash x).length = 32) ∧ HasOrder (28 : Zp 97) (2 ^ 5) ∧ 2 ^ 5 ≤ 1024 * (20 + 1) ∧ proofEntries 5 20 1 = 45 ∧
    (do
      let prf ← prove 100 sqHash ([3, 1, 4, 1, 5, 9, 2, 6, 5, 3, 5, 8, 9, 7, 9, 3, 2, 3, 8, 4] : List (Zp 97)) 28 20 4 1
      let c ← compressFri prf
      let back ← decompressFri c
      .ok (friCount prf, c.length, decide (back = prf)) : Py (Nat × Nat × Bool)).toOption = some (45, 45, true) :=
  ⟨sqHash_length, order_28, by norm_num, by decide +kernel, by decide +kernel⟩

/-- The squaring computation and its execution. This meets the hypotheses of `C130_branches`, `C130_stark_partial`. -/
example : Computation 17 2 2 1 sqStep ∧ IsDegree 1 sqStep 2 ∧ 2 ≤ 2 ^ 2 ∧ 2 ≤ 8 ∧ 2 ^ 2 ≤ 1024 * 2 ∧ IsExecution 1 (2 ^ 2) sqStep sqB sqW ∧
    (∀ col ∈ sqW, ∀ out, col.getLast? = some out → out ≠ 0) := by
  refine ⟨sq_computation, sq_isDegree, by norm_num, by norm_num, by norm_num, sq_execution, ?_⟩
  simp only [sqW, List.mem_singleton, forall_eq]
  intro out h
  simp at h
  subst h
  decide +kernel

theorem fact786433 : Fact (Nat.Prime 786433) := ⟨by norm_num⟩

theorem pow_two_pow {K : Type _} [Monoid K] (w : K) : ∀ n, w ^ 2 ^ n = (fun x => x * x)^[n] w
  | 0 => by simp
  | n + 1 => by rw [pow_succ, pow_mul, pow_two_pow w n, Function.iterate_succ_apply', sq]

attribute [local instance] fact786433 in
/-- 1000 has order `2^18` modulo `786433 = 3 * 2^18 + 1`. This meets the hypotheses of `C130_fri_refuted`. -/
example : HasOrder (1000 : Zp 786433) (2 ^ 18) ∧ 786433 ≤ 2 ^ 256 := by
  have h : orderOf (1000 : Zp 786433) = 2 ^ 18 := by
    have : Fact (Nat.Prime 2) := ⟨Nat.prime_two⟩
    apply orderOf_eq_prime_pow
    · rw [pow_two_pow]; decide +kernel
    · rw [pow_two_pow]; decide +kernel
  refine ⟨⟨by norm_num, by rw [← h, pow_orderOf_eq_one], fun j h1 h2 => ?_⟩, by norm_num⟩
  exact pow_ne_one_of_lt_orderOf (by omega) (by rw [h]; exact h2)

end Verif.Props
