import Verif.Proofs.SpotChecks
import Verif.Props.Sampling
import Verif.Props.StarkProtocol
/-!
# C146: a false execution is caught by the spot checks

A prover fixes polynomials `P_d`, `D_d`, `B_d` and commits to their values (`Commits`, in `Spec/SpotChecks`); then the second root, from
which the positions are drawn, is a random string.  The probability is over that root and the hash function on strings of 32 bytes
(`Spec/RandomHash`); what the hash function does with other strings, the proximity test and the rest of the proof are arbitrary and may be
chosen after the draw.
-/

namespace Verif.Props
open Finset Poly Stark Sampling
open Mv (Dict toMv)

section
variable {p : Nat} [Fact p.Prime] {φ : Type}


theorem nonmultiples (s e : Nat) (he : 0 < e) : #{x ∈ range (s * e) | ¬ e ∣ x} = s * (e - 1) := by
  have h := card_filter_add_card_filter_not (s := range (s * e)) (fun x => e ∣ x)
  have h1 : #{x ∈ range (s * e) | e ∣ x} = s := by
    have : {x ∈ range (s * e) | e ∣ x} = (range s).image (e * ·) := by
      ext x
      simp only [mem_filter, mem_range, mem_image]
      constructor
      · rintro ⟨h1, y, rfl⟩
        exact ⟨y, by rw [mul_comm s e] at h1; exact Nat.lt_of_mul_lt_mul_left h1, rfl⟩
      · rintro ⟨y, hy, rfl⟩
        exact ⟨by rw [mul_comm s e]; exact Nat.mul_lt_mul_of_pos_left hy he, Nat.dvd_mul_right _ _⟩
    rw [this, card_image_of_injective _ (fun a b h => Nat.eq_of_mul_eq_mul_left he h), card_range]
  rw [h1, card_range] at h
  rw [Nat.mul_sub, mul_one]
  omega

/-- **C146.** Suppose the committed polynomials are not an execution from the boundary input to the claimed output, and have at most `k`,
`k'`, `k''` coefficients; `M` is a bound on the degrees of the relations checked.  Then the probability that there is a proof with the
second root drawn that `verify_proof` accepts is at most that of `factor` independent positions, of the `N = steps * (ext - 1)` that are
not multiples of the extension factor, all being among `M - 1` of them — up to the rounding of `2^32` by `N` and the probability that the
chain of hashes repeats a value. -/
theorem C146_caught (S : Params (Zp p)) (hs : 2 ≤ S.steps) (he : 2 ≤ S.ext) (hsize : S.steps * S.ext < 2 ^ 24)
    (hG2 : HasOrder S.G2 (S.steps * S.ext)) (hG1 : S.G1 = S.G2 ^ S.ext) (hlast : S.last = S.G1 ^ (S.steps - 1)) (hn : S.n = S.width)
    (hw : ∀ f ∈ S.polys, Mv.WF S.width f) (hpl : S.width ≤ S.polys.length) (m : Nat)
    (hm : ∀ f ∈ S.polys, (toMv S.width f).totalDegree ≤ m)
    (W : List (List (Zp p))) (boundary : List (Nat × Nat × Zp p))
    (P D B : List (List (Zp p))) (hP : P.length = S.width) (hD : D.length = S.width) (hB : B.length = S.width) (k k' k'' : Nat)
    (hPk : ∀ q ∈ P, q.length ≤ k) (hDk : ∀ q ∈ D, q.length ≤ k') (hBk : ∀ q ∈ B, q.length ≤ k'')
    (M : Nat) (hk1 : max 1 m * (k - 1) < M) (hk2 : S.steps - 1 + k' ≤ M) (hk3 : k'' + 2 ≤ M) (hk4 : k ≤ M)
    (hfalse : ¬ Executes S W boundary P) (N : Nat) (hN : N = S.steps * (S.ext - 1)) :
    fraction (fun ω : Digest × (Digest → Digest) => ∃ (other : Bytes → Bytes) (friVerify : φ → Bytes → Zp p → Nat → Nat → Py Bool)
      (pr : Proof φ), pr.lRoot = ω.1.1 ∧ Commits (hashWith ω.2 other) S P D B pr ∧
        verifyProof (hashWith ω.2 other) friVerify S W boundary pr = .ok true) ≤
    (1 - (N - (M - 1) : ℕ) * (2 ^ 32 / N : ℕ) / 2 ^ 32) ^ S.factor +
      (((S.factor - 1) / 8 : ℕ) * (((S.factor - 1) / 8 : ℕ) + 1) / 2 : ℚ) / 2 ^ 256 := by
  classical
  have hg1 : orderOf S.G1 = S.steps := by
    rw [hG1, orderOf_pow' _ (by omega), hG2.eq, Nat.gcd_eq_right (Nat.dvd_mul_left _ _), Nat.mul_div_cancel _ (by omega)]
  have hl1 : S.last ≠ 1 := by
    rw [hlast]
    intro h
    have := Nat.le_of_dvd (by omega) (orderOf_dvd_of_pow_eq_one h)
    omega
  have hp0 : 2 ≤ S.precision := le_trans hs (Nat.le_mul_of_pos_right _ (by omega))
  rcases Nat.eq_zero_or_pos S.factor with h0 | h0
  · rw [h0, pow_zero]
    have h := fraction_le_one (fun ω : Digest × (Digest → Digest) => ∃ (other : Bytes → Bytes)
      (friVerify : φ → Bytes → Zp p → Nat → Nat → Py Bool) (pr : Proof φ), pr.lRoot = ω.1.1 ∧ Commits (hashWith ω.2 other) S P D B pr ∧
        verifyProof (hashWith ω.2 other) friVerify S W boundary pr = .ok true)
    simpa using h
  let bad : Finset Nat := {pos ∈ range (S.steps * S.ext) | ¬ S.ext ∣ pos ∧ ¬ PassesAt S W boundary P D B pos}
  have hbad : ∀ b ∈ bad, b < S.precision ∧ ¬ S.ext ∣ b := by
    intro b hb
    obtain ⟨h1, h2, -⟩ := by simpa [bad] using hb
    exact ⟨h1, h2⟩
  have hgood : #{pos ∈ range (S.steps * S.ext) | ¬ S.ext ∣ pos ∧ PassesAt S W boundary P D B pos} < M := by
    by_contra hge
    rw [not_lt] at hge
    refine hfalse (executes_of_passes S hs (by omega) hG2 hG1 hlast hn hw hpl m hm W boundary P D B hP hD hB k k' k'' hPk hDk hBk
      _ ?_ (lt_of_lt_of_le hk1 hge) (hk2.trans hge) (hk3.trans hge) (hk4.trans hge) ?_)
    · intro pos hpos
      exact mem_range.1 (mem_filter.1 hpos).1
    · intro pos hpos
      exact (mem_filter.1 hpos).2.2
  have hcard : N - (M - 1) ≤ #bad := by
    have h1 := nonmultiples S.steps S.ext (by omega)
    have h2 : ({x ∈ range (S.steps * S.ext) | ¬ S.ext ∣ x} : Finset Nat) ⊆
        bad ∪ ({pos ∈ range (S.steps * S.ext) | ¬ S.ext ∣ pos ∧ PassesAt S W boundary P D B pos} : Finset Nat) := by
      intro x hx
      simp only [bad, mem_union, mem_filter] at hx ⊢
      tauto
    have h3 := (card_le_card h2).trans (card_union_le _ _)
    rw [h1, ← hN] at h3
    omega
  have hNe : S.precision * (S.ext - 1) / S.ext = N := by
    rw [hN, Params.precision, mul_assoc, mul_comm S.ext, ← mul_assoc, Nat.mul_div_cancel _ (by omega)]
  have hNpos : 0 < N := by rw [hN]; exact Nat.mul_pos (by omega) (by omega)
  have hbadN : #bad ≤ N := by
    have h1 := nonmultiples S.steps S.ext (by omega)
    rw [← hN] at h1
    rw [← h1]
    refine card_le_card fun x hx => ?_
    simp only [bad, mem_filter] at hx ⊢
    tauto
  have hC := C132_excluded S.precision S.factor S.ext hp0 hsize he (Nat.dvd_mul_left _ _) h0 bad hbad
  rw [hNe] at hC
  refine (fraction_mono ?_).trans (hC.trans (add_le_add ?_ le_rfl))
  · rintro ω ⟨other, friVerify, pr, hr, hcom, hacc⟩
    obtain ⟨-, deg, positions, -, -, h3, h4⟩ := (verifyProof_iff _ _ _ _ _ _ _).1 hacc
    rw [hr, indices_hashWith] at h3
    refine ⟨positions, h3, fun b hb hmem => ?_⟩
    obtain ⟨i, hi⟩ := List.getElem?_of_mem hmem
    have h5 := h4 i b hi
    rw [Int.toNat_natCast] at h5
    have hb2 := (mem_filter.1 hb).2.2
    have hb1 := (hbad b hb).1
    refine hb2 (passesAt_of_verifyAt _ S hl1 W boundary P D B hP hD hB pr i b h5 ?_)
    intro br1 br2 leaf1 leaf2 a1 a2 a3 a4 d Pd Dd Bd e1 e2 e3
    obtain ⟨g1, g2, g3⟩ := hcom br1 (List.mem_of_getElem? a1) b leaf1 hb1 a3 d Pd Dd Bd e1 e2 e3
    obtain ⟨g4, -, -⟩ := hcom br2 (List.mem_of_getElem? a2) _ leaf2 (Nat.mod_lt _ (by omega)) a4 d Pd Dd Bd e1 e2 e3
    exact ⟨g1, g2, g3, g4⟩
  · have hle : #bad * (2 ^ 32 / N) ≤ 2 ^ 32 := (Nat.mul_le_mul_right _ hbadN).trans (Nat.mul_div_le _ _)
    have hle2 : (N - (M - 1)) * (2 ^ 32 / N) ≤ #bad * (2 ^ 32 / N) := Nat.mul_le_mul_right _ hcard
    have hle' : ((#bad : ℚ) * (2 ^ 32 / N : ℕ)) ≤ 2 ^ 32 := by exact_mod_cast hle
    have hle2' : ((N - (M - 1) : ℕ) * (2 ^ 32 / N : ℕ) : ℚ) ≤ (#bad : ℚ) * (2 ^ 32 / N : ℕ) := by exact_mod_cast hle2
    have hQ : (0 : ℚ) < 2 ^ 32 := by positivity
    generalize ((2 ^ 32 / N : ℕ) : ℚ) = q at *
    generalize (2 : ℚ) ^ 32 = Q at *
    refine pow_le_pow_left₀ ?_ ?_ _
    · rw [sub_nonneg, div_le_one hQ]; exact hle'
    · have := div_le_div_of_nonneg_right hle2' hQ.le
      linarith

theorem execution_of_executes {S : Params (Zp p)} {W : List (List (Zp p))} {boundary : List (Nat × Nat × Zp p)} {P : List (List (Zp p))}
    (hs : 1 ≤ S.steps) (hP : P.length = S.width) (h : Executes S W boundary P) :
    ∃ E, IsExecution S.width S.steps S.polys boundary E ∧ ∀ d, d < S.width → ∃ col col' out, E[d]? = some col ∧ W[d]? = some col' ∧
      col.getLast? = some out ∧ col'.getLast? = some out := by
  let f : List (Zp p) → List (Zp p) := fun q => (List.range S.steps).map fun i => (toPoly q).eval (S.G1 ^ i)
  have hrow : ∀ i, i < S.steps → wrow (P.map f) i = P.map fun q => (toPoly q).eval (S.G1 ^ i) := by
    intro i hi
    rw [wrow, List.map_map]
    refine List.map_congr_left fun q _ => ?_
    simp [f, List.getD_eq_getElem?_getD, hi]
  refine ⟨P.map f, ⟨by simp [hP], ?_, fun i hi => ?_, ?_⟩, fun d hd => ?_⟩
  · intro col hcol
    obtain ⟨q, -, rfl⟩ := List.mem_map.1 hcol
    simp [f]
  · rw [hrow i (by omega), hrow (i + 1) hi]
    exact h.1 i hi
  · intro d col hd
    rw [List.getElem?_map, Option.map_eq_some_iff] at hd
    obtain ⟨q, hq, rfl⟩ := hd
    have hdw : d < S.width := by rw [← hP]; exact (List.getElem?_eq_some_iff.1 hq).1
    obtain ⟨Pd, i, j, inp, col, out, e1, e2, e3, -⟩ := h.2 d hdw
    rw [hq] at e1
    cases e1
    refine ⟨i, j, inp, e2, ?_⟩
    rw [List.head?_eq_getElem?]
    simp [f, show 0 < S.steps from hs, e3]
  · obtain ⟨Pd, i, j, inp, col, out, e1, -, -, e4, e5, e6⟩ := h.2 d hd
    refine ⟨f Pd, col, out, by rw [List.getElem?_map, e1]; rfl, e4, ?_, e5⟩
    rw [List.getLast?_eq_getElem?]
    simp [f, show S.steps - 1 < S.steps by omega, e6]

/-- **C146**, for the degrees that the proximity test is about.  Take a computation of `2^a` steps extended `2^b` times, whose step
polynomials have degree at most `deg`, with `4 * deg * (deg + 1) ≤ 2^b`, and a claim that is false: no execution from the boundary input
ends in the claimed output.  Then a prover that commits to polynomials with at most `2^a * deg` coefficients each before the second root is
drawn is accepted with probability at most `2^-factor`, up to the probability that the chain of hashes repeats a value. -/
theorem C146_half (a b width : Nat) (polys : List (Dict (Zp p))) (c : Computation p a b width polys) (deg : Nat)
    (hdeg : ∀ f ∈ polys, (toMv width f).totalDegree ≤ deg) (hdeg1 : 1 ≤ deg) (hb : 4 * deg * (deg + 1) ≤ 2 ^ b)
    (boundary : List (Nat × Nat × Zp p)) (W : List (List (Zp p)))
    (hfalse : ¬ ∃ E, IsExecution width (2 ^ a) polys boundary E ∧ ∀ d, d < width → ∃ col col' out, E[d]? = some col ∧ W[d]? = some col' ∧
      col.getLast? = some out ∧ col'.getLast? = some out)
    (P D B : List (List (Zp p))) (hP : P.length = width) (hD : D.length = width) (hB : B.length = width)
    (hlen : ∀ q ∈ P ++ D ++ B, q.length ≤ 2 ^ a * deg) (factor : Nat) :
    ∃ F, ∀ fuel ≥ F, ∃ S, mkStark fuel p (2 ^ a) (2 ^ b) width width polys factor = .ok S ∧
      fraction (fun ω : Digest × (Digest → Digest) => ∃ (other : Bytes → Bytes) (friVerify : φ → Bytes → Zp p → Nat → Nat → Py Bool)
        (pr : Proof φ), pr.lRoot = ω.1.1 ∧ Commits (hashWith ω.2 other) S P D B pr ∧
          verifyProof (hashWith ω.2 other) friVerify S W boundary pr = .ok true) ≤
      (1 / 2) ^ factor + (((factor - 1) / 8 : ℕ) * (((factor - 1) / 8 : ℕ) + 1) / 2 : ℚ) / 2 ^ 256 := by
  obtain ⟨F, hF⟩ := c.params factor
  refine ⟨F, fun fuel hf => ?_⟩
  obtain ⟨S, h1, hs, h3, rfl, h5, rfl, rfl, h8, h9, h11, h12, h13, h14⟩ := hF fuel hf
  refine ⟨S, h1, ?_⟩
  have ha2 : 2 ≤ 2 ^ a := by
    calc 2 = 2 ^ 1 := rfl
      _ ≤ 2 ^ a := Nat.pow_le_pow_right (by omega) c.steps
  have hb2 : 8 ≤ 2 ^ b := by nlinarith
  have hsz : 2 ^ a * 2 ^ b < 2 ^ 24 := by
    rw [← pow_add]; exact Nat.pow_lt_pow_right (by omega) c.size
  rw [← hs] at ha2 hsz hlen
  rw [← h3] at hb2 hsz hb
  rw [← hs, ← h3] at h12
  have hfin : ¬ Executes S W boundary P := fun h => hfalse (by
    rw [← hs]; exact execution_of_executes (by omega) hP h)
  have hl : ∀ q ∈ P, q.length ≤ S.steps * deg := fun q hq => hlen q (by simp [hq])
  have hl' : ∀ q ∈ D, q.length ≤ S.steps * deg := fun q hq => hlen q (by simp [hq])
  have hl'' : ∀ q ∈ B, q.length ≤ S.steps * deg := fun q hq => hlen q (by simp [hq])
  have key := C146_caught (φ := φ) S ha2 (by omega) hsz h12 (by rw [h11, h3]) (by rw [h14, hs]) h5 c.wf c.count deg hdeg W boundary P D B hP hD hB
    _ _ _ hl hl' hl'' (S.steps * deg * (deg + 1)) ?_ ?_ ?_ ?_ hfin _ rfl
  · refine key.trans (add_le_add ?_ le_rfl)
    generalize hN : S.steps * (S.ext - 1) = N
    generalize hM : S.steps * deg * (deg + 1) = M
    have hNs : N + S.steps = S.steps * S.ext := by
      rw [← hN]
      conv_lhs => rw [← Nat.mul_succ]
      congr 1; omega
    have hM4 : 4 * M ≤ S.steps * S.ext := by
      rw [← hM]
      calc 4 * (S.steps * deg * (deg + 1)) = S.steps * (4 * deg * (deg + 1)) := by ring
        _ ≤ _ := Nat.mul_le_mul_left _ hb
    have hs8 : S.steps * 8 ≤ S.steps * S.ext := Nat.mul_le_mul_left _ hb2
    have hNpos : 0 < N := by omega
    have hdm := Nat.div_add_mod (2 ^ 32) N
    have hml := Nat.mod_lt (2 ^ 32) hNpos
    have h8N : 5 * N ≤ 8 * (N - (M - 1)) := by omega
    have hNN : N - (M - 1) ≤ N := Nat.sub_le _ _
    generalize N - (M - 1) = X at *
    generalize hq : 2 ^ 32 / N = q at *
    have h9 : 5 * (N * q) ≤ 8 * (X * q) := by
      calc 5 * (N * q) = (5 * N) * q := by ring
        _ ≤ (8 * X) * q := Nat.mul_le_mul_right _ h8N
        _ = _ := by ring
    have h10 : X * q ≤ N * q := Nat.mul_le_mul_right _ hNN
    have h11 : 2 ^ 31 ≤ X * q := by omega
    have h12 : X * q ≤ 2 ^ 32 := by omega
    have h11' : (2 : ℚ) ^ 31 ≤ X * q := by exact_mod_cast h11
    have h12' : (X * q : ℚ) ≤ 2 ^ 32 := by exact_mod_cast h12
    refine pow_le_pow_left₀ ?_ ?_ _
    · rw [sub_nonneg, div_le_one (by positivity)]; exact h12'
    · have : (1 / 2 : ℚ) ≤ X * q / 2 ^ 32 := by
        rw [le_div_iff₀ (by positivity)]
        norm_num at h11' ⊢
        linarith
      linarith
  · rw [max_eq_right hdeg1]
    have h1 : 1 ≤ S.steps * deg := Nat.mul_pos (by omega) (by omega)
    have h2 : deg * (S.steps * deg - 1) ≤ deg * (S.steps * deg) := Nat.mul_le_mul_left _ (by omega)
    calc deg * (S.steps * deg - 1) ≤ S.steps * deg * deg := by rw [mul_comm (S.steps * deg)]; exact h2
      _ < S.steps * deg * (deg + 1) := Nat.mul_lt_mul_of_pos_left (by omega) h1
  · have h1 : S.steps ≤ S.steps * deg := Nat.le_mul_of_pos_right _ (by omega)
    have h2 : S.steps * deg * 2 ≤ S.steps * deg * (deg + 1) := Nat.mul_le_mul_left _ (by omega)
    omega
  · have h1 : S.steps ≤ S.steps * deg := Nat.le_mul_of_pos_right _ (by omega)
    have h2 : S.steps * deg * 2 ≤ S.steps * deg * (deg + 1) := Nat.mul_le_mul_left _ (by omega)
    omega
  · exact Nat.le_mul_of_pos_right _ (by omega)

/-- **C146**, what a commitment is.  If the first root is that of a tree over the packed values of the polynomials, and the branches of the
proof have the shape of honest ones, then the root is a commitment to the polynomials — or a string hashed in checking a branch and a
different one hashed in building the tree have the same hash. -/
theorem C146_commits (blake : Bytes → Bytes) (hbl : ∀ x, (blake x).length = 32) (S : Params (Zp p)) (k : Nat) (hk : 2 ≤ k)
    (hprec : S.precision = 2 ^ k) (P D B : List (List (Zp p))) (bs : List Bytes) (hbs : bs.length = 2 ^ k)
    (hval : ∀ (pos : Nat) (leaf : Bytes), bs[pos]? = some leaf → leaf.length = 96 * S.width ∧
      ∀ (d : Nat) (Pd Dd Bd : List (Zp p)), P[d]? = some Pd → D[d]? = some Dd → B[d]? = some Bd →
        blk leaf d = (toPoly Pd).eval (S.G2 ^ pos) ∧ blk leaf (S.width + d) = (toPoly Dd).eval (S.G2 ^ pos) ∧
        blk leaf (2 * S.width + d) = (toPoly Bd).eval (S.G2 ^ pos))
    (tree : List Bytes) (htree : Merkle.merkelize blake (bs.map .bytes) = .ok tree) (pr : Proof φ) (hroot : tree[1]? = some pr.mRoot)
    (hshape : ∀ br ∈ pr.branches, br.length = k + 1 ∧ ∀ leaf, br.head? = some leaf → leaf.length = 96 * S.width) :
    Commits blake S P D B pr ∨ ∃ br ∈ pr.branches, ∃ pos < S.precision, ∃ s ∈ Merkle.hashedByVerification blake pos br, ∃ t,
      Merkle.HashedInTree tree t ∧ s ≠ t ∧ blake s = blake t := by
  by_cases hc : ∃ br ∈ pr.branches, ∃ pos < S.precision, ∃ s ∈ Merkle.hashedByVerification blake pos br, ∃ t,
      Merkle.HashedInTree tree t ∧ s ≠ t ∧ blake s = blake t
  · exact .inr hc
  refine .inl fun br hbr pos leaf hpos hv => ?_
  obtain ⟨hl1, hl2⟩ := hshape br hbr
  have hhead : br.head? = some leaf := by
    cases br with
    | nil => simp at hl1
    | cons v vs =>
      simp only [Merkle.verifyBranch, Air.bind_iff] at hv
      obtain ⟨_, -, _, -, h⟩ := hv
      rw [List.head?_cons, Except.ok.inj h]
  have hpos2 : pos < bs.length := by omega
  have hb : bs[pos]?.map List.length = some leaf.length := by
    rw [List.getElem?_eq_getElem hpos2, Option.map_some, hl2 leaf hhead, (hval pos _ (List.getElem?_eq_getElem hpos2)).1]
  rcases C31_opening_is_item_partial blake 32 hbl (bs.map .bytes) bs k hk (by simpa using hbs) (by simp [Merkle.Leaf.encode]) pos
    (by simpa using hpos2) tree pr.mRoot htree hroot br leaf hl1 hb hv with h | ⟨s, h1, t, h2, h3, h4⟩
  · exact (hval pos leaf h).2
  · exact absurd ⟨br, hbr, pos, hpos, s, h1, t, h2, h3, h4⟩ hc

/-! ### A concrete case: two steps of `x ↦ 2 x` modulo 17 from 1, claimed to end in 3 -/

def dblStep : List (Dict (Zp 17)) := [[([1], 2)]]

theorem dbl_wf : ∀ f ∈ dblStep, Mv.WF 1 f := by
  simp only [dblStep, List.mem_singleton, forall_eq]
  exact ⟨by decide, by decide +kernel, by decide⟩

theorem dbl_computation : Computation 17 1 3 1 dblStep := by
  refine ⟨by norm_num, by norm_num, by norm_num, by norm_num, ⟨by norm_num, by decide +kernel, ?_⟩, by norm_num, by norm_num,
    by decide, dbl_wf⟩
  intro j h1 h2
  norm_num at h2
  interval_cases j <;> decide +kernel

/-- The claim is false, the degrees are as required: with the extension factor 8 each of 80 spot checks finds out with probability at
least a half.  This meets the hypotheses of `C146_caught`, `C146_half`. -/
example : Computation 17 1 3 1 dblStep ∧ (∀ f ∈ dblStep, (toMv 1 f).totalDegree ≤ 1) ∧ 4 * 1 * (1 + 1) ≤ 2 ^ 3 ∧
    (¬ ∃ E, IsExecution 1 (2 ^ 1) dblStep [(0, 0, 1)] E ∧ ∀ d, d < 1 → ∃ col col' out, E[d]? = some col ∧
      ([[1, 3]] : List (List (Zp 17)))[d]? = some col' ∧ col.getLast? = some out ∧ col'.getLast? = some out) ∧
    (∀ q ∈ ([[1, 2]] ++ [[5]] ++ [[7, 3]] : List (List (Zp 17))), q.length ≤ 2 ^ 1 * 1) := by
  refine ⟨dbl_computation, ?_, by norm_num, ?_, by decide⟩
  · intro f hf
    rw [← Mv.degree_eq (dbl_wf f hf)]
    simp only [dblStep, List.mem_singleton] at hf
    subst hf
    decide
  · rintro ⟨E, hE, h⟩
    obtain ⟨col, col', out, e1, e2, e3, e4⟩ := h 0 (by norm_num)
    simp only [List.getElem?_cons_zero, Option.some.injEq] at e2
    subst e2
    simp only [List.getLast?_cons_cons, List.getLast?_singleton, Option.some.injEq] at e4
    subst e4
    obtain ⟨i, j, inp, f1, f2⟩ := hE.start 0 col e1
    simp only [List.getElem?_cons_zero, Option.some.injEq, Prod.mk.injEq] at f1
    obtain ⟨-, -, rfl⟩ := f1
    have hEl : E = [col] := by
      have := hE.columns
      match E, this, e1 with
      | [c], _, h => simpa using h
    subst hEl
    have hc := hE.entries col (by simp)
    match col, hc, e3, f2, hE with
    | [x, y], _, e3, f2, hE =>
      simp only [List.getLast?_cons_cons, List.getLast?_singleton, Option.some.injEq, List.head?_cons] at e3 f2
      subst e3 f2
      have s0 := (Air.nextState_iff _ _ _ _ _).2 (hE.step 0 (by norm_num))
      revert s0
      decide +kernel

/-- The leaves of the tree over the values of the three polynomials of the honest proof in `Props/StarkProtocol`. -/
def sqLeaves : List Bytes := (List.range 16).map fun pos => (beDigits 32 (call ([0, 6, 3, 9] : List (Zp 17)) ((7 : Zp 17) ^ pos)).1.toNat ++
  beDigits 32 (call ([4, 7, 13, 4] : List (Zp 17)) ((7 : Zp 17) ^ pos)).1.toNat ++ beDigits 32 (call ([10, 9] : List (Zp 17)) ((7 : Zp 17) ^ pos)).1.toNat)

/-- The branch at position 5 of the tree over these leaves is as `C146_commits` requires. This meets the hypotheses of
`C146_commits`. -/
example : ∃ (tree br : List Bytes) (root : Bytes), Merkle.merkelize sqHash (sqLeaves.map .bytes) = .ok tree ∧ tree[1]? = some root ∧
    Merkle.mkBranch tree 5 = .ok br ∧ sqLeaves.length = 2 ^ 4 ∧ br.length = 4 + 1 ∧ (∀ leaf, br.head? = some leaf → leaf.length = 96 * 1) ∧
    (∃ leaf, Merkle.verifyBranch sqHash root 5 br = .ok leaf) ∧
    ∀ (pos : Nat) (leaf : Bytes), sqLeaves[pos]? = some leaf → leaf.length = 96 * 1 ∧
      blk leaf 0 = (toPoly ([0, 6, 3, 9] : List (Zp 17))).eval ((7 : Zp 17) ^ pos) ∧ blk leaf 1 = (toPoly ([4, 7, 13, 4] : List (Zp 17))).eval ((7 : Zp 17) ^ pos) ∧
      blk leaf 2 = (toPoly ([10, 9] : List (Zp 17))).eval ((7 : Zp 17) ^ pos) := by
  have hrun : ∃ tree br, Merkle.merkelize sqHash (sqLeaves.map .bytes) = .ok tree ∧ Merkle.mkBranch tree 5 = .ok br ∧
      ((tree[1]?).isSome && br.length == 5 && (br.head?.all fun l => l.length == 96) &&
        ((Merkle.verifyBranch sqHash (tree.getD 1 []) 5 br).toOption.isSome)) = true := by
    have h : (do
      let tree ← Merkle.merkelize sqHash (sqLeaves.map .bytes)
      let br ← Merkle.mkBranch tree 5
      .ok ((tree[1]?).isSome && br.length == 5 && (br.head?.all fun l => l.length == 96) &&
        ((Merkle.verifyBranch sqHash (tree.getD 1 []) 5 br).toOption.isSome)) : Py Bool) = .ok true := by decide +kernel
    simp only [Air.bind_iff] at h
    obtain ⟨tree, h1, br, h2, h3⟩ := h
    exact ⟨tree, br, h1, h2, Except.ok.inj h3⟩
  obtain ⟨tree, br, h1, h2, h3⟩ := hrun
  simp only [Bool.and_eq_true, beq_iff_eq] at h3
  obtain ⟨⟨⟨a1, a2⟩, a3⟩, a4⟩ := h3
  obtain ⟨root, hr⟩ := Option.isSome_iff_exists.1 a1
  refine ⟨tree, br, root, h1, hr, h2, by decide, a2, ?_, ?_, ?_⟩
  · intro leaf hl
    rw [hl] at a3
    simpa using a3
  · rw [List.getD_eq_getElem?_getD, hr, Option.getD_some] at a4
    cases hv : Merkle.verifyBranch sqHash root 5 br with
    | ok l => exact ⟨l, rfl⟩
    | error e => rw [hv] at a4; simp [Except.toOption] at a4
  · have hall : ∀ pos < 16, ∀ leaf, sqLeaves[pos]? = some leaf → leaf.length = 96 * 1 ∧
        blk leaf 0 = call ([0, 6, 3, 9] : List (Zp 17)) ((7 : Zp 17) ^ pos) ∧ blk leaf 1 = call ([4, 7, 13, 4] : List (Zp 17)) ((7 : Zp 17) ^ pos) ∧
        blk leaf 2 = call ([10, 9] : List (Zp 17)) ((7 : Zp 17) ^ pos) := by
      have : ∀ pos < 16, ((sqLeaves[pos]?).all fun leaf => decide (leaf.length = 96 * 1 ∧
        blk leaf 0 = call ([0, 6, 3, 9] : List (Zp 17)) ((7 : Zp 17) ^ pos) ∧ blk leaf 1 = call ([4, 7, 13, 4] : List (Zp 17)) ((7 : Zp 17) ^ pos) ∧
        blk leaf 2 = call ([10, 9] : List (Zp 17)) ((7 : Zp 17) ^ pos))) = true := by decide +kernel
      intro pos hp leaf hl
      have h := this pos hp
      rw [hl] at h
      simpa using h
    intro pos leaf hl
    have hp : pos < 16 := by
      have := (List.getElem?_eq_some_iff.1 hl).1
      simpa [sqLeaves] using this
    simpa only [PolyUtils.call_eq_eval] using hall pos hp leaf hl

end

end Verif.Props
