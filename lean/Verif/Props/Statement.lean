import Verif.Props.Boundary
import Verif.Props.SpotChecks
import Verif.Proofs.PrimeSearch
/-!
# C162: a proof proves one statement

What `verify_proof` takes for the statement are the inputs, the values in the first `width` places of the boundary constraints
(`firstValues`), and the outputs, the last entries of the columns of the witness (`lastEntries`, both in `Spec/Boundary`).
-/

namespace Verif.Props
open Poly Stark Air
open scoped Polynomial
open Polynomial (C X)

variable {p : Nat} [Fact p.Prime] {φ : Type}

theorem sampled (blake : Bytes → Bytes) (hbl : ∀ x, (blake x).length = 32) (S : Params (Zp p)) (ho : orderOf S.G2 = S.precision)
    (h2 : 2 ≤ S.precision) (h24 : S.precision < 2 ^ 24) (he : 2 ≤ S.ext) {root : Bytes} {positions : List Int}
    (h : Utils.getPseudorandomIndices blake root S.precision S.factor S.ext = .ok positions) :
    positions.length = S.factor ∧ ∀ pos ∈ positions, 0 ≤ pos ∧ pos < S.precision ∧ S.G2 ^ pos.toNat ≠ 1 := by
  obtain ⟨o, o1, o2, o3⟩ := C36_indices_exclude blake hbl root S.precision S.factor S.ext (by exact_mod_cast h2) (by exact_mod_cast h24)
    (by exact_mod_cast he)
  rw [h] at o1
  cases o1
  refine ⟨o2, fun pos hpos => ?_⟩
  obtain ⟨z1, z2, z3⟩ := o3 pos hpos
  refine ⟨z1, z2, fun h1 => ?_⟩
  have hdvd := orderOf_dvd_of_pow_eq_one h1
  rw [ho] at hdvd
  rcases Nat.eq_zero_or_pos pos.toNat with h0 | h0
  · exact z3 (by rw [show pos = 0 by omega]; exact dvd_zero _)
  · have := Nat.le_of_dvd h0 hdvd
    omega

/-- **C162**, one half given: if a proof is accepted for two statements with the same inputs, they have the same outputs, and if it is
accepted for two with the same outputs, they have the same inputs. -/
theorem C162_half_partial (blake : Bytes → Bytes) (hbl : ∀ x, (blake x).length = 32)
    (friVerify : φ → Bytes → Zp p → Nat → Nat → Py Bool) (S : Params (Zp p)) (hl : S.last ≠ 1) (ho : orderOf S.G2 = S.precision)
    (h2 : 2 ≤ S.precision) (h24 : S.precision < 2 ^ 24) (he : 2 ≤ S.ext) (hf : 1 ≤ S.factor) (W W' : List (List (Zp p)))
    (b b' : List (Nat × Nat × Zp p)) (pr : Proof φ) (h : verifyProof blake friVerify S W b pr = .ok true)
    (h' : verifyProof blake friVerify S W' b' pr = .ok true) :
    firstValues S.width b = firstValues S.width b' ↔ lastEntries S.width W = lastEntries S.width W' := by
  obtain ⟨-, deg, positions, -, -, v3, v4⟩ := (verifyProof_iff _ _ _ _ _ _ _).1 h
  obtain ⟨-, deg', positions', -, -, w3, w4⟩ := (verifyProof_iff _ _ _ _ _ _ _).1 h'
  rw [v3] at w3
  cases w3
  obtain ⟨s1, s2⟩ := sampled blake hbl S ho h2 h24 he v3
  have hpos : positions[0]? = some (positions[0]'(by omega)) := List.getElem?_eq_getElem _
  obtain ⟨-, -, hx1⟩ := s2 _ (List.mem_of_getElem? hpos)
  obtain ⟨hxl, hiff⟩ := verifyAt_lines blake S W W' b b' pr 0 _ hl (v4 0 _ hpos)
  have hlines := hiff.1 (w4 0 _ hpos)
  rw [firstValues_iff, lastEntries_iff]
  constructor
  · intro hin d hd
    obtain ⟨inp, out, inp', out', e1, e2, e3, e4, I, J, f1, f2, f3, f4, f5, f6, f7⟩ := hlines d hd
    have := hin d hd
    rw [e1, e3, Option.some.injEq] at this
    have hIJ := line_unique f1 f4 hx1 f7 (f2.trans (this.trans f5.symm))
    rw [e2, e4, ← f3, ← f6, hIJ]
  · intro hin d hd
    obtain ⟨inp, out, inp', out', e1, e2, e3, e4, I, J, f1, f2, f3, f4, f5, f6, f7⟩ := hlines d hd
    have := hin d hd
    rw [e2, e4, Option.some.injEq] at this
    have hIJ := line_unique f1 f4 hxl f7 (f3.trans (this.trans f6.symm))
    rw [e1, e3, ← f2, ← f5, hIJ]

/-- **C162** with two different positions among those sampled: a proof is accepted for one statement at most. -/
theorem C162_statement_partial (blake : Bytes → Bytes) (hbl : ∀ x, (blake x).length = 32)
    (friVerify : φ → Bytes → Zp p → Nat → Nat → Py Bool) (S : Params (Zp p)) (hl : S.last ≠ 1) (ho : orderOf S.G2 = S.precision)
    (h2 : 2 ≤ S.precision) (h24 : S.precision < 2 ^ 24) (he : 2 ≤ S.ext) (W W' : List (List (Zp p)))
    (b b' : List (Nat × Nat × Zp p)) (pr : Proof φ) (positions : List Int)
    (hs : Utils.getPseudorandomIndices blake pr.lRoot S.precision S.factor S.ext = .ok positions)
    (hd : ∃ x ∈ positions, ∃ y ∈ positions, x ≠ y)
    (h : verifyProof blake friVerify S W b pr = .ok true) (h' : verifyProof blake friVerify S W' b' pr = .ok true) :
    firstValues S.width b = firstValues S.width b' ∧ lastEntries S.width W = lastEntries S.width W' := by
  obtain ⟨-, deg, positions', -, -, v3, v4⟩ := (verifyProof_iff _ _ _ _ _ _ _).1 h
  obtain ⟨-, deg', positions'', -, -, w3, w4⟩ := (verifyProof_iff _ _ _ _ _ _ _).1 h'
  rw [hs] at v3 w3
  cases v3
  cases w3
  obtain ⟨x, hx, y, hy, hxy⟩ := hd
  obtain ⟨i, hi, rfl⟩ := List.getElem_of_mem hx
  obtain ⟨j, hj, rfl⟩ := List.getElem_of_mem hy
  have hposi : positions[i]? = some positions[i] := List.getElem?_eq_getElem _
  have hposj : positions[j]? = some positions[j] := List.getElem?_eq_getElem _
  have hL1 := (verifyAt_lines blake S W W' b b' pr i _ hl (v4 i _ hposi)).2.1 (w4 i _ hposi)
  have hL2 := (verifyAt_lines blake S W W' b b' pr j _ hl (v4 j _ hposj)).2.1 (w4 j _ hposj)
  have hne : S.G2 ^ positions[i].toNat ≠ S.G2 ^ positions[j].toNat := by
    intro h
    obtain ⟨a1, a2, -⟩ := (sampled blake hbl S ho h2 h24 he hs).2 _ hx
    obtain ⟨b1, b2, -⟩ := (sampled blake hbl S ho h2 h24 he hs).2 _ hy
    have := pow_inj_of_order ho _ _ (by omega) (by omega) h
    omega
  have key : ∀ d, d < S.width → (b[d]?).map (fun con => con.2.2) = (b'[d]?).map (fun con => con.2.2) ∧
      ((W[d]?).bind fun col => col.getLast?) = (W'[d]?).bind fun col => col.getLast? := by
    intro d hd
    obtain ⟨inp, out, inp', out', e1, e2, e3, e4, I, J, f1, f2, f3, f4, f5, f6, f7⟩ := hL1 d hd
    obtain ⟨inp2, out2, inp2', out2', e1', e2', e3', e4', I', J', g1, g2, g3, g4, g5, g6, g7⟩ := hL2 d hd
    rw [e1, Option.some.injEq] at e1'
    rw [e2, Option.some.injEq] at e2'
    rw [e3, Option.some.injEq] at e3'
    rw [e4, Option.some.injEq] at e4'
    subst e1' e2' e3' e4'
    have hI : I' = I := line_unique g1 f1 hl.symm (g2.trans f2.symm) (g3.trans f3.symm)
    have hJ : J' = J := line_unique g4 f4 hl.symm (g5.trans f5.symm) (g6.trans f6.symm)
    subst hI hJ
    have hIJ := line_unique f1 f4 hne f7 g7
    subst hIJ
    exact ⟨by rw [e1, e3, ← f2, f5], by rw [e2, e4, ← f3, f6]⟩
  exact ⟨firstValues_iff.2 fun d hd => (key d hd).1, lastEntries_iff.2 fun d hd => (key d hd).2⟩

/-- **C162** with a random root: if the second root of the proof and the hash function on 32-byte strings are random, there is hardly ever a
proof with that root that is accepted for two statements, whatever the rest of the proof, the rest of the hash function and the
proximity test are; `N` is the number of positions that can be sampled. -/
theorem C162_random_partial (S : Params (Zp p)) (hl : S.last ≠ 1) (ho : orderOf S.G2 = S.precision) (hs : 2 ≤ S.steps)
    (h24 : S.precision < 2 ^ 24) (he : 2 ≤ S.ext) (hf : 1 ≤ S.factor) (N : Nat) (hN : N = S.steps * (S.ext - 1)) :
    fraction (fun ω : Digest × (Digest → Digest) => ∃ (other : Bytes → Bytes) (friVerify : φ → Bytes → Zp p → Nat → Nat → Py Bool)
      (pr : Proof φ) (W W' : List (List (Zp p))) (b b' : List (Nat × Nat × Zp p)), (∀ x, (other x).length = 32) ∧ pr.lRoot = ω.1.1 ∧
        verifyProof (hashWith ω.2 other) friVerify S W b pr = .ok true ∧
        verifyProof (hashWith ω.2 other) friVerify S W' b' pr = .ok true ∧
        ¬ (firstValues S.width b = firstValues S.width b' ∧ lastEntries S.width W = lastEntries S.width W')) ≤
    N * ((1 - (N - 1 : ℕ) * (2 ^ 32 / N : ℕ) / 2 ^ 32) ^ S.factor +
      (((S.factor - 1) / 8 : ℕ) * (((S.factor - 1) / 8 : ℕ) + 1) / 2 : ℚ) / 2 ^ 256) := by
  classical
  have hprec : S.precision = S.steps * S.ext := rfl
  have h2 : 2 ≤ S.precision := by rw [hprec]; nlinarith
  have hR : S.precision * (S.ext - 1) / S.ext = N := by
    rw [hN, hprec, Nat.mul_right_comm, Nat.mul_div_cancel _ (by omega)]
  let A : Finset Nat := (Finset.range S.precision).filter fun x => ¬ S.ext ∣ x
  have hA : A.card = N := by rw [hN]; exact nonmultiples S.steps S.ext (by omega)
  let e := A.equivFinOfCardEq hA
  refine (Sampling.fraction_mono (Q := fun ω => ∃ i : Fin N, ∃ o, Utils.getPseudorandomIndices (hashOf ω.2) ω.1.1 S.precision S.factor S.ext
    = .ok o ∧ ∀ y ∈ A.erase (e.symm i).1, (y : Int) ∉ o) ?_).trans (Spec.Bases.fraction_exists N _ _ fun i => ?_)
  · rintro ω ⟨other, friVerify, pr, W, W', b, b', hoth, hroot, h, h', hne⟩
    have hbl : ∀ x, (hashWith ω.2 other x).length = 32 := fun x => by
      unfold hashWith
      split_ifs
      exacts [(ω.2 _).2, hoth x]
    obtain ⟨-, deg, positions, -, -, v3, -⟩ := (verifyProof_iff _ _ _ _ _ _ _).1 h
    have hsame : ∀ x ∈ positions, ∀ y ∈ positions, x = y := by
      intro x hx y hy
      by_contra hxy
      exact hne (C162_statement_partial _ hbl friVerify S hl ho h2 h24 he W W' b b' pr positions v3 ⟨x, hx, y, hy, hxy⟩ h h')
    obtain ⟨o, o1, o2, o3⟩ := C36_indices_exclude _ hbl pr.lRoot S.precision S.factor S.ext (by exact_mod_cast h2) (by exact_mod_cast h24)
      (by exact_mod_cast he)
    rw [v3] at o1
    cases o1
    obtain ⟨x, hx⟩ : ∃ x, x ∈ positions := by
      rcases positions with _ | ⟨x, _⟩
      · simp at o2; omega
      · exact ⟨x, by simp⟩
    obtain ⟨z1, z2, z3⟩ := o3 x hx
    have hxA : x.toNat ∈ A := by
      simp only [A, Finset.mem_filter, Finset.mem_range]
      refine ⟨by omega, fun hd => z3 ?_⟩
      rw [← Int.toNat_of_nonneg z1]
      exact_mod_cast hd
    refine ⟨e ⟨x.toNat, hxA⟩, positions, ?_, fun y hy hyo => ?_⟩
    · rw [← indices_hashWith ω.2 other, ← hroot]; exact v3
    · have := hsame x hx y hyo
      simp only [Equiv.symm_apply_apply, Finset.mem_erase] at hy
      omega
  · have hB : ∀ y ∈ A.erase (e.symm i).1, y < S.precision ∧ ¬ S.ext ∣ y := fun y hy => by
      simpa [A] using Finset.mem_of_mem_erase hy
    have := C132_excluded S.precision S.factor S.ext h2 h24 he (Dvd.intro_left _ rfl) hf _ hB
    rw [Finset.card_erase_of_mem (e.symm i).2, hA, hR] at this
    exact this

theorem all_equal_small (N : Nat) (h1 : 2 ≤ N) (h2 : N < 2 ^ 24) :
    (N : ℚ) * ((1 - (N - 1 : ℕ) * (2 ^ 32 / N : ℕ) / 2 ^ 32) ^ 80 + (((80 - 1) / 8 : ℕ) * (((80 - 1) / 8 : ℕ) + 1) / 2 : ℚ) / 2 ^ 256) ≤
      1 / 2 ^ 78 := by
  rcases Nat.lt_or_ge 2 N with h3 | h3
  · have hNq : (3 : ℚ) ≤ N := by exact_mod_cast h3
    have hN2 : (N : ℚ) ≤ 2 ^ 24 := by exact_mod_cast h2.le
    have hN0 : (0 : ℚ) < N := by linarith
    have hd : 2 ^ 32 ≤ N * (2 ^ 32 / N) + N := by
      have := Nat.div_add_mod (2 ^ 32) N
      have := Nat.mod_lt (2 ^ 32) (by omega : 0 < N)
      omega
    have hd' : (2 ^ 32 : ℚ) ≤ N * (2 ^ 32 / N : ℕ) + N := by exact_mod_cast hd
    have hu : (N * (2 ^ 32 / N : ℕ) : ℚ) ≤ 2 ^ 32 := by exact_mod_cast Nat.mul_div_le (2 ^ 32) N
    rw [Nat.cast_sub (by omega : 1 ≤ N), Nat.cast_one]
    set F : ℚ := ((2 ^ 32 / N : ℕ) : ℚ) with hF
    have hF0 : 0 ≤ F := Nat.cast_nonneg _
    have hq0 : 0 ≤ 1 - ((N : ℚ) - 1) * F / 2 ^ 32 := by
      rw [sub_nonneg, div_le_one (by positivity)]; linarith
    have hF3 : F ≤ 2 ^ 32 / 3 := by
      rw [le_div_iff₀ (by norm_num)]; nlinarith
    have hq : 1 - ((N : ℚ) - 1) * F / 2 ^ 32 ≤ 7 / 20 := by
      rw [sub_le_iff_le_add, ← sub_le_iff_le_add', le_div_iff₀ (by positivity)]
      norm_num
      linarith
    have hp : (1 - ((N : ℚ) - 1) * F / 2 ^ 32) ^ 80 ≤ (7 / 20) ^ 80 := pow_le_pow_left₀ hq0 hq 80
    calc _ ≤ (2 ^ 24 : ℚ) * ((7 / 20) ^ 80 + (((80 - 1) / 8 : ℕ) * (((80 - 1) / 8 : ℕ) + 1) / 2 : ℚ) / 2 ^ 256) := by
          refine mul_le_mul hN2 (add_le_add hp le_rfl) (add_nonneg (pow_nonneg hq0 _) (by positivity)) (by positivity)
      _ ≤ _ := by norm_num
  · obtain rfl : N = 2 := by omega
    norm_num

/-- **C162** with the 80 spot checks the constructor sets if the caller does not ask for another number: the probability is at most
`2^-78`. -/
theorem C162_eighty_partial (S : Params (Zp p)) (hl : S.last ≠ 1) (ho : orderOf S.G2 = S.precision) (hs : 2 ≤ S.steps)
    (h24 : S.precision < 2 ^ 24) (he : 2 ≤ S.ext) (hf : S.factor = 80) :
    fraction (fun ω : Digest × (Digest → Digest) => ∃ (other : Bytes → Bytes) (friVerify : φ → Bytes → Zp p → Nat → Nat → Py Bool)
      (pr : Proof φ) (W W' : List (List (Zp p))) (b b' : List (Nat × Nat × Zp p)), (∀ x, (other x).length = 32) ∧ pr.lRoot = ω.1.1 ∧
        verifyProof (hashWith ω.2 other) friVerify S W b pr = .ok true ∧
        verifyProof (hashWith ω.2 other) friVerify S W' b' pr = .ok true ∧
        ¬ (firstValues S.width b = firstValues S.width b' ∧ lastEntries S.width W = lastEntries S.width W')) ≤ 1 / 2 ^ 78 := by
  have h := C162_random_partial (φ := φ) S hl ho hs h24 he (by omega) _ rfl
  rw [hf] at h
  have hprec : S.precision = S.steps * S.ext := rfl
  refine h.trans (all_equal_small _ ?_ ?_)
  · calc 2 ≤ S.steps * 1 := by omega
      _ ≤ _ := Nat.mul_le_mul_left _ (by omega)
  · exact lt_of_le_of_lt (Nat.mul_le_mul_left _ (by omega)) h24

/-- **C162** fails when all sampled positions are the same, as with `spot_check_security_factor = 1`: a proof accepted for one statement
is accepted for a statement with any other inputs. -/
theorem C162_one_position_refuted (blake : Bytes → Bytes) (hbl : ∀ x, (blake x).length = 32)
    (friVerify : φ → Bytes → Zp p → Nat → Nat → Py Bool) (S : Params (Zp p)) (hl : S.last ≠ 1) (ho : orderOf S.G2 = S.precision)
    (h2 : 2 ≤ S.precision) (h24 : S.precision < 2 ^ 24) (he : 2 ≤ S.ext) (W : List (List (Zp p))) (b : List (Nat × Nat × Zp p))
    (pr : Proof φ) (positions : List Int)
    (hs : Utils.getPseudorandomIndices blake pr.lRoot S.precision S.factor S.ext = .ok positions)
    (hsame : ∀ x ∈ positions, ∀ y ∈ positions, x = y) (h : verifyProof blake friVerify S W b pr = .ok true)
    (inputs : List (Zp p)) (hin : inputs.length = S.width) :
    ∃ W', verifyProof blake friVerify S W' (inputs.map fun v => (0, 0, v)) pr = .ok true := by
  obtain ⟨-, deg, positions', v1, v2, v3, v4⟩ := (verifyProof_iff _ _ _ _ _ _ _).1 h
  rw [hs] at v3
  cases v3
  obtain ⟨s1, s2⟩ := sampled blake hbl S ho h2 h24 he hs
  rcases positions with _ | ⟨pos, rest⟩
  · exact ⟨W, (verifyProof_iff _ _ _ _ _ _ _).2 ⟨rfl, deg, [], v1, v2, hs, by simp⟩⟩
  set x := S.G2 ^ pos.toNat with hxdef
  have hx1 : x ≠ 1 := (s2 pos (by simp)).2.2
  have hall : ∀ (i : Nat) (q : Int), (pos :: rest)[i]? = some q → q = pos := fun i q hq =>
    hsame q (List.mem_of_getElem? hq) pos (by simp)
  -- the lines of the statement that is accepted
  have hself := (verifyAt_lines blake S W W b b pr 0 _ hl (v4 0 pos rfl)).2.1 (v4 0 pos rfl)
  have hline : ∀ d, ∃ I : (Zp p)[X], d < S.width → I.degree ≤ 1 ∧ (b[d]?).map (fun con => con.2.2) = some (I.eval 1) ∧
      ((W[d]?).bind fun col => col.getLast?) = some (I.eval S.last) := by
    intro d
    by_cases hd : d < S.width
    · obtain ⟨inp, out, _, _, e1, e2, -, -, I, _, f1, f2, f3, -⟩ := hself d hd
      exact ⟨I, fun _ => ⟨f1, by rw [f2, e1], by rw [f3, e2]⟩⟩
    · exact ⟨0, fun h => absurd h hd⟩
  choose I hI using hline
  let v : Nat → Zp p := fun d => inputs.getD d 0
  let J : Nat → (Zp p)[X] := fun d => C (v d) + C (((I d).eval x - v d) / (x - 1)) * (X - C 1)
  have hJd : ∀ d, (J d).degree ≤ 1 := fun d => by
    refine (Polynomial.degree_add_le _ _).trans (max_le (Polynomial.degree_C_le.trans (by norm_num)) ?_)
    refine (Polynomial.degree_mul_le _ _).trans ?_
    rw [Polynomial.degree_X_sub_C]
    calc _ ≤ (0 : WithBot ℕ) + 1 := add_le_add_left Polynomial.degree_C_le _
      _ = 1 := by norm_num
  have hJ1 : ∀ d, (J d).eval 1 = v d := fun d => by simp [J]
  have hJx : ∀ d, (J d).eval x = (I d).eval x := fun d => by
    simp only [J, Polynomial.eval_add, Polynomial.eval_mul, Polynomial.eval_sub, Polynomial.eval_X, Polynomial.eval_C]
    rw [div_mul_cancel₀ _ (sub_ne_zero.2 hx1)]
    ring
  refine ⟨(List.range S.width).map fun d => [(J d).eval S.last], (verifyProof_iff _ _ _ _ _ _ _).2 ⟨rfl, deg, _, v1, v2, hs, fun i q hq => ?_⟩⟩
  have hq' := hall i q hq
  have hv := v4 i q hq
  subst hq'
  refine (verifyAt_lines blake S W _ b _ pr i _ hl hv).2.2 fun d hd => ?_
  obtain ⟨g1, g2, g3⟩ := hI d hd
  refine ⟨_, _, v d, (J d).eval S.last, g2, g3, ?_, ?_, I d, J d, g1, rfl, rfl, hJd d, hJ1 d, rfl, (hJx d).symm⟩
  · have hd' : d < inputs.length := by omega
    simp [v, hd']
  · simp [hd]

/-- The parameters of four steps of `x ↦ x² + 1` modulo 17 are as required; of the honest proof from 1 to 9, ten positions are sampled, not
all the same, and it is accepted. With one position it is accepted for the statement from 7 to 3 as well. This meets the hypotheses of
`C162_half_partial`, `C162_statement_partial` and `C162_one_position_refuted`. -/
example : (∀ x, (sqHash x).length = 32) ∧
    (do
      let S ← mkStark (K := Zp 17) 100 17 4 4 1 1 sqStep 10
      let pr ← mkProof 100 sqHash (fun _ _ _ _ => .ok ()) S sqW sqB
      let positions ← Utils.getPseudorandomIndices sqHash pr.lRoot S.precision S.factor S.ext
      let r ← verifyProof sqHash (fun _ _ _ _ _ => .ok true) S sqW sqB pr
      .ok (positions, decide (S.G2 = 7 ∧ S.last = 13 ∧ S.precision = 16 ∧ S.ext = 4), r) : Py (List Int × Bool × Bool)) =
        .ok ([1, 1, 1, 1, 1, 7, 14, 3, 1, 1], true, true) ∧ orderOf (7 : Zp 17) = 16 ∧
    (do
      let S ← mkStark (K := Zp 17) 100 17 4 4 1 1 sqStep 1
      let pr ← mkProof 100 sqHash (fun _ _ _ _ => .ok ()) S sqW sqB
      let positions ← Utils.getPseudorandomIndices sqHash pr.lRoot S.precision S.factor S.ext
      let r ← verifyProof sqHash (fun _ _ _ _ _ => .ok true) S sqW sqB pr
      let r' ← verifyProof sqHash (fun _ _ _ _ _ => .ok true) S [[3]] [(0, 0, 7)] pr
      .ok (positions, r, r') : Py (List Int × Bool × Bool)) = .ok ([1], true, true) := by
  refine ⟨sqHash_length, by decide +kernel, (orderOf_eq_iff (by norm_num)).2 ⟨by decide +kernel, fun m h1 h2 => ?_⟩, by decide +kernel⟩
  interval_cases m <;> decide +kernel

/-- The same computation with the default number of spot checks: the sampled positions are 12 of 16. This meets the hypotheses of
`C162_random_partial` and `C162_eighty_partial`. -/
example : (do
      let S ← mkStark (K := Zp 17) 100 17 4 4 1 1 sqStep 80
      .ok (decide (S.G2 = 7 ∧ S.last = 13 ∧ S.steps = 4 ∧ S.precision = 16 ∧ S.ext = 4 ∧ S.factor = 80 ∧ S.steps * (S.ext - 1) = 12)) :
        Py Bool) = .ok true ∧ orderOf (7 : Zp 17) = 16 ∧ (13 : Zp 17) ≠ 1 := by
  refine ⟨by decide +kernel, (orderOf_eq_iff (by norm_num)).2 ⟨by decide +kernel, fun m h1 h2 => ?_⟩, by decide +kernel⟩
  interval_cases m <;> decide +kernel

end Verif.Props
