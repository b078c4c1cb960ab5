import Verif.Proofs.ProofSize
import Verif.Props.GeneratedProofs
/-!
# C142: the size of proofs

`bin_length` of `compress_fri` and `compress_branches`: exactly, and for the proofs the code makes bounded by the parameters.
-/

namespace Verif.Props
open Verif.Poly Verif.Mv Verif.Stark Verif.Compression Verif.SmoothFri

variable {p : Nat} [hp : Fact p.Prime]

/-- **C142** (exact size). Whatever the proof, if `compress_fri` returns, what it returns has as many entries as the proof written out with its
separators, and counts every different entry once and every repetition two bytes. -/
theorem C142_fri_size (prf : List (Bytes × List (List (List Bytes))) × List Bytes) (c : List Bytes) (h : compressFri prf = .ok c) :
    c.length = friCount prf ∧ binLength c = sharedSize (friEntries prf) := by
  rw [← friEntries_length]
  exact (compressFri_size h).symm

/-- **C142** (exact size), for `compress_branches`. -/
theorem C142_branches_size (branches : List (List Bytes)) (c : List Bytes) (h : compressBranches branches = .ok c) :
    c.length = (branches.map fun b => b.length + 1).sum ∧ binLength c = sharedSize (branchEntries branches) := by
  rw [← branchEntries_length]
  exact (compressBranches_size h).symm

/-- **C142** (compression never costs). If every byte string has at least two bytes, the compressed form is not longer than the proof written
out. -/
theorem C142_never_longer_partial (prf : List (Bytes × List (List (List Bytes))) × List Bytes) (branches : List (List Bytes)) (c : List Bytes) :
    ((∀ x ∈ friObjects prf, 2 ≤ x.length) → compressFri prf = .ok c → binLength c ≤ plainSize (friEntries prf)) ∧
      ((∀ b ∈ branches, ∀ x ∈ b, 2 ≤ x.length) → compressBranches branches = .ok c → binLength c ≤ plainSize (branchEntries branches)) := by
  constructor
  · intro h2 h
    rw [(compressFri_size h).1]
    refine sharedSize_le _ fun x hx => ?_
    rcases mem_friEntries hx with h4 | h4
    · omega
    · exact h2 x h4
  · intro h2 h
    rw [(compressBranches_size h).1]
    refine sharedSize_le _ fun x hx => ?_
    obtain ⟨b, hb, hx⟩ := List.mem_flatMap.1 hx
    rcases List.mem_append.1 hx with h4 | h4
    · exact h2 b hb x h4
    · rw [List.mem_singleton.1 h4]
      decide

/-- **C142** fails for shorter strings: a repeated string of one byte grows to two. -/
theorem C142_never_longer_refuted :
    ∃ c, compressBranches [[[7], [7]]] = .ok c ∧ binLength c = 7 ∧ plainSize (branchEntries [[[7], [7]]]) = 6 :=
  ⟨[[7], [0, 0], sep '-'], by decide +kernel, by decide +kernel, by decide +kernel⟩

/-- **C142** (proofs of proximity). Whatever the polynomial: a proof that `prove` returns for a domain of `2^k` points, the bound `d` and `F` positions
has, compressed, at most `33 * proofEntries k d F` bytes. -/
theorem C142_generated_fri (hp2 : p ≤ 2 ^ 256) (blake : Bytes → Bytes) (hbl : ∀ x, (blake x).length = 32) (w : Zp p) (k : Nat)
    (hk : 2 ≤ k) (hk2 : k < 26) (hw : HasOrder w (2 ^ k)) (fuel : Nat) (hfuel : 2 ^ k ≤ fuel) (f : List (Zp p)) (hl : f.length ≤ 2 ^ k)
    (d : Nat) (hd : d ≤ 2 ^ k) (e : Nat) (he : e = 0 ∨ 2 ≤ e) (F : Nat)
    (prf : List (Bytes × List (List (List Bytes))) × List Bytes) (h : prove fuel blake f w d e F = .ok prf)
    (c : List Bytes) (hc : compressFri prf = .ok c) :
    binLength c ≤ 33 * proofEntries k d F := by
  have h32 := (C130_fri blake hbl fuel f w d e F prf h).1
  have h1 := (C142_never_longer_partial prf [] c).1 (fun x hx => by rw [h32 x hx]; omega) hc
  refine h1.trans ?_
  rw [← C130_fri_size hp2 blake hbl w k hk hk2 hw fuel hfuel f hl d hd e he F prf h, ← friEntries_length]
  refine plainSize_le _ 33 fun x hx => ?_
  rcases mem_friEntries hx with h4 | h4
  · rw [cost, h4]; simp
  · rw [cost, h32 x h4]; simp

/-- **C142** (proofs of proximity are short). With at most 40 positions and `2^k ≤ 1024 * (d + 1)`, every proof that `prove` returns can be compressed to at
most `33 * (50 * k^2 + 281 * k + 17409)` bytes: the square of the logarithm of the size of the domain. -/
theorem C142_generated_fri_short (hp2 : p ≤ 2 ^ 256) (blake : Bytes → Bytes) (hbl : ∀ x, (blake x).length = 32) (w : Zp p) (k : Nat)
    (hk : 2 ≤ k) (hk2 : k < 26) (hw : HasOrder w (2 ^ k)) (fuel : Nat) (hfuel : 2 ^ k ≤ fuel) (f : List (Zp p)) (hl : f.length ≤ 2 ^ k)
    (d : Nat) (hd : d ≤ 2 ^ k) (hc : 2 ^ k ≤ 1024 * (d + 1)) (e : Nat) (he : e = 0 ∨ 2 ≤ e) (F : Nat) (hF : F ≤ 40)
    (prf : List (Bytes × List (List (List Bytes))) × List Bytes) (h : prove fuel blake f w d e F = .ok prf) :
    ∃ c, compressFri prf = .ok c ∧ binLength c ≤ 33 * (50 * k ^ 2 + 281 * k + 17409) := by
  obtain ⟨c, h1, -⟩ := C130_fri_partial hp2 blake hbl w k hk hk2 hw fuel hfuel f hl d hd hc e he F hF prf h
  exact ⟨c, h1, (C142_generated_fri hp2 blake hbl w k hk hk2 hw fuel hfuel f hl d hd e he F prf h c h1).trans
    (Nat.mul_le_mul_left _ (proofEntries_le d k F hF hd hc))⟩

/-- **C142**, end to end. Take a valid execution of `2^a` steps with `width` registers whose outputs are not zero, as in `C74_smooth`.  The branches of the proof
made of it compress to at most `30720 * width + 7920 * (a + b)` bytes, and if the extension factor is at most `1024 * deg` the whole proof, branches and
proof of proximity together, to at most `1650 k^2 + 17193 k + 30720 width + 574497` bytes, `k = a + b`. -/
theorem C142_stark (blake : Bytes → Bytes) (hbl : ∀ x, (blake x).length = 32) (a b width : Nat)
    (polys : List (Dict (Zp p))) (c : Computation p a b width polys) (deg : Nat) (hdeg : IsDegree width polys deg) (hdeg1 : 1 ≤ deg)
    (hdeg2 : deg ≤ 2 ^ b) (hq : deg ≤ 8 ∨ ∃ r j, 2 ^ a * deg = r * 4 ^ j ∧ r ≤ 16)
    (boundary : List (Nat × Nat × Zp p)) (W : List (List (Zp p))) (hW : IsExecution width (2 ^ a) polys boundary W)
    (hout : ∀ col ∈ W, ∀ out, col.getLast? = some out → out ≠ 0) (factor : Nat) :
    ∃ N, ∀ fuel ≥ N, ∃ S pr z, mkStark fuel p (2 ^ a) (2 ^ b) width width polys factor = .ok S ∧
      mkProof fuel blake (fun f w d e => prove fuel blake f w d e 40) S W boundary = .ok pr ∧
      compressBranches pr.branches = .ok z ∧ binLength z ≤ 30720 * width + 7920 * (a + b) ∧
      (2 ^ b ≤ 1024 * deg → ∃ y, compressFri pr.fri = .ok y ∧
        binLength z + binLength y ≤ 1650 * (a + b) ^ 2 + 17193 * (a + b) + 30720 * width + 574497) := by
  obtain ⟨N, hN⟩ := stark_generated blake hbl a b width polys c deg hdeg hdeg1 hdeg2 hq boundary W hW hout factor
  refine ⟨N, fun fuel hf => ?_⟩
  obtain ⟨S, pr, l, h1, m1, m6, m7, h12, hfuel, g0, g2, hdle, -⟩ := hN fuel hf
  have hab : 2 ≤ a + b := by have := c.steps; have := c.ext; omega
  have hab2 : a + b < 26 := by have := c.size; omega
  have hb2 : 2 ≤ 2 ^ b := by
    calc 2 = 2 ^ 1 := rfl
      _ ≤ _ := Nat.pow_le_pow_right (by omega) c.ext
  obtain ⟨z, hz, -⟩ := (C130_branches blake hbl fuel _ S W boundary pr m1).2 (by
    rw [sum_le_of_length m7, m6]
    have := c.size
    omega)
  have hzl : binLength z ≤ 30720 * width + 7920 * (a + b) := by
    obtain ⟨bs, e1, e2⟩ := mkProof_branches blake hbl fuel _ S W boundary (by rw [hW.columns]; exact c.width_pos) pr m1
    rw [e1] at m6 m7
    have h80 : bs.length = 80 := by
      have : (bs.flatMap fun t => [t.1, t.2.1, t.2.2]).length = bs.length * 3 := by
        rw [List.length_flatMap]
        simp
      omega
    have h2 := branches_size bs e2 m7
    rw [(compressBranches_size hz).1, e1]
    rw [h80, hW.columns] at h2
    refine le_trans (sharedSize_le _ fun x hx => ?_) (by omega)
    obtain ⟨br, hbr, hx⟩ := List.mem_flatMap.1 hx
    rcases List.mem_append.1 hx with h4 | h4
    · obtain ⟨t, ht, hbr⟩ := List.mem_flatMap.1 hbr
      obtain ⟨a1, a2, a3⟩ := e2 t ht
      simp only [List.mem_cons, List.not_mem_nil, or_false] at hbr
      rcases hbr with rfl | rfl | rfl
      · exact a1.two_le x h4
      · exact a2.two_le x h4
      · exact a3.two_le x h4
    · rw [List.mem_singleton.1 h4]
      decide
  refine ⟨S, pr, z, h1, m1, hz, hzl, fun hc => ?_⟩
  obtain ⟨y, hy, hyl⟩ := C142_generated_fri_short c.modulus blake hbl S.G2 (a + b) hab hab2 h12 fuel hfuel l g0 _ hdle (by
    have := Nat.mul_le_mul_left (2 ^ a) hc
    rw [pow_add]
    nlinarith) _ (.inr hb2) 40 le_rfl _ g2
  exact ⟨y, hy, by omega⟩

/-- Strings that repeat: 12 + 12 + 4 bytes the first time, two bytes for each of the four repetitions. This meets the hypotheses of `C142_fri_size`,
`C142_branches_size`, `C142_never_longer_partial`. -/
example : let x : Bytes := List.replicate 12 1
    let y : Bytes := List.replicate 12 2
    (∀ b ∈ [[x, y], [], [y, x]], ∀ z ∈ b, 2 ≤ z.length) ∧
    (compressBranches [[x, y], [], [y, x]]).toOption = some [x, y, sep '-', [0, 2], [0, 1], [0, 0], [0, 2]] ∧
    binLength [x, y, sep '-', [0, 2], [0, 1], [0, 0], [0, 2]] = 36 ∧ sharedSize (branchEntries [[x, y], [], [y, x]]) = 36 ∧
    plainSize (branchEntries [[x, y], [], [y, x]]) = 60 ∧
    (∀ z ∈ friObjects ([(x, [[[y, x]]])], [y]), 2 ≤ z.length) ∧
    (compressFri ([(x, [[[y, x]]])], [y])).toOption = some [sep '-', x, y, [0, 1], sep '+', sep '=', sep '/', [0, 2]] ∧
    sharedSize (friEntries ([(x, [[[y, x]]])], [y])) = 44 := by
  decide +kernel

/-- A proof with one layer and one position, for 32 points and the bound 20: at most 1485 bytes. This meets the hypotheses of `C142_generated_fri`,
`C142_generated_fri_short`. -/
example : (∀ x, (sqHash x).length = 32) ∧ HasOrder (28 : Zp 97) (2 ^ 5) ∧ 2 ^ 5 ≤ 1024 * (20 + 1) ∧ 33 * proofEntries 5 20 1 = 1485 ∧
    (do
      let prf ← prove 100 sqHash ([3, 1, 4, 1, 5, 9, 2, 6, 5, 3, 5, 8, 9, 7, 9, 3, 2, 3, 8, 4] : List (Zp 97)) 28 20 4 1
      let c ← compressFri prf
      .ok (binLength c, plainSize (friEntries prf)) : Py (Nat × Nat)).toOption = some (687, 1253) :=
  ⟨sqHash_length, order_28, by norm_num, by decide +kernel, by decide +kernel⟩

/-- The squaring computation and its execution. This meets the hypotheses of `C142_stark`. -/
example : Computation 17 2 2 1 sqStep ∧ IsDegree 1 sqStep 2 ∧ 2 ≤ 2 ^ 2 ∧ 2 ≤ 8 ∧ 2 ^ 2 ≤ 1024 * 2 ∧ IsExecution 1 (2 ^ 2) sqStep sqB sqW ∧
    (∀ col ∈ sqW, ∀ out, col.getLast? = some out → out ≠ 0) := by
  refine ⟨sq_computation, sq_isDegree, by norm_num, by norm_num, by norm_num, sq_execution, ?_⟩
  simp only [sqW, List.mem_singleton, forall_eq]
  intro out h
  simp at h
  subst h
  decide +kernel

end Verif.Props
