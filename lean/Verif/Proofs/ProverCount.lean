import Verif.Proofs.QueryCount
import Verif.Props.GeneratedProofs
/-!
# The number of hash values the provers depend on
-/

namespace Verif.ProverCount
open Verif.Spec Verif.Poly Verif.PolyUtils Verif.Compression Verif.SmoothFri Verif.Stark Verif.QueryCount Verif.FFT

variable {α β : Type _} {blake : Bytes → Bytes} {p : Nat} [Fact p.Prime]

theorem _root_.Verif.Spec.Determined.after (x : Py α) {g : (Bytes → Bytes) → α → Py β} {n : Nat}
    (hg : ∀ a, x = .ok a → Determined (fun b => g b a) blake n) : Determined (fun b => x >>= g b) blake n :=
  (Determined.bind (n := 0) (Determined.const x 0) hg).mono (by omega)

theorem interp4Loop_length (inv : List (Zp p)) : ∀ (l : List (List (Zp p) × List (Zp p) × List (Zp p) × List (Zp p) × List (Zp p))) (i : Nat)
    (r : List (List (Zp p))), interp4Loop inv i l = .ok r → r.length = l.length
  | [], _, _, h => by cases h; rfl
  | _ :: l, i, r, h => by
    simp only [interp4Loop] at h
    repeat (obtain ⟨_, _, h⟩ := bind_inv h)
    cases h
    simp only [List.length_cons]
    congr 1
    exact interp4Loop_length inv l _ _ (by assumption)

theorem multiInterp4_length {xs ys r : List (List (Zp p))} (h : multiInterp4 xs ys = .ok r) : r.length ≤ xs.length := by
  simp only [multiInterp4] at h
  obtain ⟨data, h1, h⟩ := bind_inv h
  obtain ⟨inv, h2, h⟩ := bind_inv h
  rw [interp4Loop_length _ _ _ _ h, List.length_map, pyMap_len h1]
  simp

theorem fold_column {fuel : Nat} {b : Bytes → Bytes} {w : Zp p} {V C : List (Zp p)} {m m2 : List Bytes} {q : Nat}
    (h : fold fuel b w V = .ok (m, q, C, m2)) : C.length ≤ V.length / 4 := by
  simp only [fold] at h
  obtain ⟨xs, h1, h⟩ := bind_inv h
  obtain ⟨_, h2, h⟩ := bind_inv h
  obtain ⟨m', h3, h⟩ := bind_inv h
  obtain ⟨root, h4, h⟩ := bind_inv h
  obtain ⟨xr, h5, h⟩ := bind_inv h
  obtain ⟨yr, h6, h⟩ := bind_inv h
  obtain ⟨polys, h7, h⟩ := bind_inv h
  obtain ⟨m2', h8, h⟩ := bind_inv h
  cases h
  have e1 := multiInterp4_length h7
  rw [pyMap_len h5, List.length_range] at e1
  have e2 : V.length = xs.length := by
    by_contra hne
    simp [pyAssert, hne] at h2
  rw [List.length_map, e2]
  exact e1

theorem fold_determined (fuel : Nat) (w : Zp p) (V : List (Zp p)) :
    Determined (fun b => fold fuel b w V) blake ((V.length - 1) + (V.length / 4 - 1)) := by
  simp only [fold]
  refine Determined.after _ fun xs _ => Determined.after _ fun _ h2 => ?_
  refine Determined.bind (by simpa using merkelize_determined (blake := blake) (V.map fun a => Merkle.Leaf.elt (enc a))) fun m _ => ?_
  refine Determined.after _ fun root _ => Determined.after _ fun xr h5 => Determined.after _ fun yr _ => Determined.after _ fun polys h7 => ?_
  have e1 := multiInterp4_length h7
  rw [pyMap_len h5, List.length_range] at e1
  have e2 : V.length = xs.length := by
    by_contra hne
    simp [pyAssert, hne] at h2
  refine Determined.bind (n := V.length / 4 - 1) (m := 0) ((merkelize_determined _).mono ?_) fun m2 _ => Determined.const _ _
  simp only [List.length_map]
  omega

theorem proveRec_determined (hbl : ∀ x, (blake x).length = 32) (fuel e : Nat) : ∀ (depth : Nat) (f : List (Zp p)) (w : Zp p) (d k F : Nat),
    orderOf w = 2 ^ k → 2 ^ k ≤ fuel → f.length ≤ 2 ^ k → d ≤ 2 ^ k →
    Determined (fun b => proveRec fuel b depth f w d e F) blake (2 * 2 ^ k + (F + 7) / 8)
  | 0, _, _, _, _, _, _, _, _, _ => Determined.const _ _
  | depth + 1, f, w, d, k, F, hw, hf, hl, hd => by
    simp only [proveRec]
    refine Determined.after _ fun values hv => ?_
    rw [fwd_spec w k hw fuel hf f hl] at hv
    cases hv
    by_cases h16 : d ≤ 16
    · simp only [h16, if_true]
      exact Determined.const _ _
    · simp only [h16, if_false]
      have hk5 : 5 ≤ k := by
        by_contra hlt
        have : 2 ^ k ≤ 2 ^ 4 := Nat.pow_le_pow_right (by omega) (by omega)
        omega
      obtain ⟨k0, rfl⟩ : ∃ k0, k = k0 + 2 := ⟨k - 2, by omega⟩
      have h4 : 2 ^ (k0 + 2) = 4 * 2 ^ k0 := by rw [pow_add]; ring
      have hw4 := order_four (hw.trans h4)
      have h8 : 2 ^ 3 ≤ 2 ^ k0 := Nat.pow_le_pow_right (by omega) (by omega)
      have hF := fold_determined (blake := blake) fuel w (dft w (2 ^ (k0 + 2)) f)
      have hlen : (dft w (2 ^ (k0 + 2)) f).length = 4 * 2 ^ k0 := by simp [h4]
      rw [hlen] at hF
      refine (Determined.bind (m := (F + 7) / 8 + (2 * 2 ^ k0 + (40 + 7) / 8)) hF fun r hr => ?_).mono (by omega)
      obtain ⟨m, q, C, m2⟩ := r
      have hC := fold_column hr
      rw [hlen] at hC
      refine Determined.after _ fun root2 _ => ?_
      refine Determined.bind (indices_determined hbl _ _ _ F) fun ys _ => ?_
      refine Determined.after _ fun br _ => Determined.after _ fun g hg => ?_
      refine Determined.bind (m := 0) (proveRec_determined hbl fuel e depth g (w ^ 4) (d / 4) k0 40 hw4 (by omega) ?_ (by omega))
        fun rest _ => Determined.const _ _
      rw [nbInvFft, FFT.fft1d_inv ((good_iff _).2 ⟨k0, .inl rfl⟩) (w ^ 4) hw4 p C (by omega) fuel (by omega)] at hg
      cases hg
      refine length_le_of_canon (canon_ctor _) _ fun i hi => ?_
      rw [toPoly_ctor]
      refine Polynomial.coeff_eq_zero_of_natDegree_lt ?_
      refine lt_of_lt_of_le ?_ hi
      refine lt_of_le_of_lt (natDegree_toPoly_le (n := 2 ^ k0 - 1) (by simp; omega)) (by omega)

theorem ks_determined (root : Bytes) (num : Nat) : Determined (fun b => Utils.getPseudorandomKs b root num) blake num := by
  have : ∀ L : List Bytes, Determined (fun b : Bytes → Bytes => some (L.map fun l => fromBytes (b (root ++ l)))) blake L.length := fun L =>
    ⟨L.map (root ++ ·), by simp, fun b hb => by
      refine congrArg some (List.map_congr_left fun l hl => ?_)
      rw [hb _ (List.mem_map_of_mem hl)]⟩
  simp only [Utils.getPseudorandomKs]
  split
  · exact (this _).mono (by simp)
  · split
    · exact (this _).mono (by simp)
    · exact Determined.const _ _

theorem combination_determined (entropy : Bytes) (P D B : List (List (Zp p))) (G : Zp p) (deg steps width : Nat) :
    Determined (fun b => combination b entropy P D B G deg steps width) blake (4 + width) := by
  simp only [combination]
  refine Determined.bind (n := 4) ?_ fun ls _ => ?_
  · obtain ⟨Q, h1, h2⟩ := ks_determined (blake := blake) entropy 4
    refine ⟨Q, h1, fun b hb => ?_⟩
    have e : Utils.getPseudorandomKs b entropy 4 = Utils.getPseudorandomKs blake entropy 4 := h2 b hb
    simp only [combination1d, e]
  · obtain ⟨Q, h1, h2⟩ := ks_determined (blake := blake) entropy width
    exact ⟨Q, h1, fun b hb => by simp only [h2 b hb]⟩

theorem zipStar_length {γ : Type _} (n : Nat) : ∀ rows : List (List γ), (∀ r ∈ rows, r.length ≤ n) → (Merkle.zipStar rows).length ≤ n
  | [], _ => by simp [Merkle.zipStar]
  | [r], h => by simpa [Merkle.zipStar] using h r (by simp)
  | r :: r' :: rows, h => by
    rw [Merkle.zipStar, List.length_zipWith]
    · exact (Nat.min_le_left _ _).trans (h r (by simp))
    · simp

theorem evaluations_determined (n : Nat) (rows : List (List (Py Bytes))) (h : ∀ r ∈ rows, r.length ≤ n) :
    Determined (fun b => Merkle.merkelizePolynomialEvaluations b rows) blake (n - 1) := by
  simp only [Merkle.merkelizePolynomialEvaluations]
  refine Determined.after _ fun leaves hl => (merkelize_determined _).mono ?_
  have e : leaves.length = (Merkle.zipStar rows).length := by
    have : ∀ (l : List (List (Py Bytes))) (o : List Bytes), l.mapM Merkle.joinBytes = .ok o → o.length = l.length := by
      intro l
      induction l with
      | nil => intro o ho; cases ho; rfl
      | cons a l ih =>
        intro o ho
        rw [List.mapM_cons] at ho
        obtain ⟨x, _, ho⟩ := bind_inv ho
        obtain ⟨y, hy, ho⟩ := bind_inv ho
        cases ho
        simp [ih y hy]
    exact this _ _ hl
  have := zipStar_length n rows h
  simp only [List.length_map]
  omega

theorem pyMap_from {f : α → Py β} : ∀ {l : List α} {r : List β}, pyMap f l = .ok r → ∀ b ∈ r, ∃ a ∈ l, f a = .ok b
  | [], _, h, b, hb => by cases h; simp at hb
  | a :: l, r, h, b, hb => by
    rw [pyMap] at h
    obtain ⟨x, h1, h⟩ := bind_inv h
    obtain ⟨y, h2, h⟩ := bind_inv h
    cases h
    rcases List.mem_cons.1 hb with rfl | hb
    · exact ⟨a, by simp, h1⟩
    · obtain ⟨a', h3, h4⟩ := pyMap_from h2 b hb
      exact ⟨a', List.mem_cons_of_mem _ h3, h4⟩

variable {φ : Type _}

/-- The prover, when the polynomials of the execution have been computed and have no more than `n` coefficients. -/
theorem mkProof_determined (hbl : ∀ x, (blake x).length = 32) (fuel : Nat) (S : Params (Zp p)) (W : List (List (Zp p)))
    (boundary : List (Nat × Nat × Zp p)) (P D B : List (List (Zp p))) (cps : List (PVal (Zp p))) (p1 : tracePolys fuel S.p S.G1 W = .ok P)
    (p2 : constraintPolys S.n S.polys P S.G1 = .ok cps) (p3 : remainderPolys cps S.steps S.last = .ok D)
    (p4 : boundaryPolys P W boundary S.last S.width = .ok B) (n : Nat)
    (hfft : ∀ f v : List (Zp p), f.length ≤ n → FFT.nbFft fuel S.p S.G2 f = .ok v → v.length ≤ n)
    (hQ : ∀ f ∈ P ++ D ++ B, f.length ≤ n)
    (hl : ∀ entropy l, combination blake entropy P D B S.G2 S.precision S.steps S.width = .ok (some l) → l.length ≤ n)
    (friProve : (Bytes → Bytes) → List (Zp p) → Zp p → Nat → Nat → Py φ) (c : Nat)
    (hfri : ∀ l deg, l.length ≤ n → Air.getDegree S.polys = .ok deg →
      Determined (fun b => friProve b l S.G2 (S.steps * deg) S.ext) blake c) :
    Determined (fun b => mkProof fuel b (friProve b) S W boundary) blake ((n - 1) + ((4 + S.width) + ((n - 1) + (10 + c)))) := by
  simp only [mkProof, p1]
  refine Determined.after (.ok P) fun _ h => ?_
  cases h
  simp only [p2]
  refine Determined.after (.ok cps) fun _ h => ?_
  cases h
  simp only [p3]
  refine Determined.after (.ok D) fun _ h => ?_
  cases h
  simp only [p4]
  refine Determined.after (.ok B) fun _ h => ?_
  cases h
  refine Determined.after _ fun evals hev => ?_
  have hrow : ∀ r ∈ evals, r.length ≤ n := by
    intro r hr
    obtain ⟨f, hf, hv⟩ := pyMap_from hev r hr
    exact hfft f r (hQ f hf) hv
  refine Determined.bind (evaluations_determined n _ ?_) fun mtree _ => ?_
  · intro r hr
    obtain ⟨r', hr', rfl⟩ := List.mem_map.1 hr
    simpa using hrow r' hr'
  refine Determined.after _ fun mRoot _ => ?_
  refine Determined.bind (combination_determined _ _ _ _ _ _ _ _) fun l hlc => ?_
  cases l with
  | none => exact Determined.const _ _
  | some l =>
    have hln := hl _ _ hlc
    refine Determined.after _ fun levals hle => ?_
    have hlel := hfft l levals hln hle
    refine Determined.bind (n := n - 1) ((merkelize_determined _).mono (by simp only [List.length_map]; omega)) fun ltree _ => ?_
    refine Determined.bind (n := 10) ?_ fun br _ => ?_
    · simp only [spotChecks]
      refine Determined.after _ fun root _ => ?_
      refine Determined.bind (m := 0) (indices_determined hbl _ _ _ 80) fun pos _ => Determined.const _ _
    · refine Determined.after _ fun lRoot _ => Determined.after _ fun deg hd => ?_
      exact Determined.bind (m := 0) (hfri l deg hln hd) fun fri _ => Determined.const _ _

end Verif.ProverCount
