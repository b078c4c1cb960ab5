import Verif.Proofs.Gauss
/-!
# What `gauss` leaves in the matrix
-/

namespace Verif.Gauss
open Poly Finset

variable {K : Type _} [Field K] [DecidableEq K]

theorem pyDiv_inv {a b c : K} (h : pyDiv a b = .ok c) : b ≠ 0 ∧ c * b = a := by
  unfold pyDiv at h
  split at h
  · cases h
  · rename_i hb
    cases h
    exact ⟨hb, by field_simp⟩

/-- Back substitution changes the last column only, to the products of the diagonal and the solution. -/
theorem backLoop_final {row : Nat} : ∀ (i : Nat) (M : Mat K) (x y : List K) (M' : Mat K), i + x.length = row →
    backLoop pyDiv row i M x = .ok (y, M') →
    (∀ a b, b ≠ row → M' a b = M a b) ∧ (∀ a, i ≤ a → M' a row = M a row) ∧
    (∀ a < i, M a a ≠ 0 ∧ M' a row = M a a * y.getD a 0) ∧ ∀ j, y.getD (i + j) 0 = x.getD j 0
  | 0, M, x, y, M', _, h => by
    rw [backLoop] at h
    cases h
    exact ⟨fun _ _ _ => rfl, fun _ _ => rfl, fun a ha => absurd ha (Nat.not_lt_zero _), fun j => by rw [zero_add]⟩
  | i + 1, M, x, y, M', hl, h => by
    rw [backLoop] at h
    cases hd : pyDiv (M i row) (M i i) with
    | error e => rw [hd] at h; cases h
    | ok xi =>
      rw [hd] at h
      obtain ⟨hne, hxi⟩ := pyDiv_inv hd
      have hir : i ≠ row := by omega
      have hs : ∀ a b, substLoop row i xi (List.range i).reverse M a b = if a < i ∧ b = row then M a row - M a i * xi else M a b := by
        intro a b
        rw [substLoop_eq _ _ hir _ _ _ _ _ (List.nodup_reverse.2 List.nodup_range)]
        simp
      obtain ⟨h1, h2, h3, h4⟩ := backLoop_final i _ _ _ _ (by rw [List.length_cons]; omega) h
      refine ⟨fun a b hb => ?_, fun a ha => ?_, fun a ha => ?_, fun j => ?_⟩
      · rw [h1 a b hb, hs, if_neg (by tauto)]
      · rw [h2 a (by omega), hs, if_neg (by omega)]
      · rcases Nat.lt_or_eq_of_le (Nat.lt_succ_iff.1 ha) with h | rfl
        · obtain ⟨g1, g2⟩ := h3 a h
          rw [hs, if_neg (by omega)] at g1 g2
          exact ⟨g1, g2⟩
        · refine ⟨hne, ?_⟩
          have e0 := h4 0
          rw [add_zero] at e0
          rw [h2 a le_rfl, hs, if_neg (by omega), e0, ← hxi, List.getD_cons_zero, mul_comm]
      · have := h4 (j + 1)
        rwa [List.getD_cons_succ, show i + (j + 1) = i + 1 + j by omega] at this

/-- What `gauss` returns and what it leaves in the matrix. -/
theorem gauss_final {bigger : Nat → Nat → K → K → Py Bool} (hb : Prefers bigger) (M : Mat K) (row : Nat) (y : List K) (M' : Mat K)
    (h : gauss pyDiv bigger M row = .ok (y, M')) :
    y.length = row ∧ Sol M row 1 (fun j => y.getD j 0) ∧ Echelon M' row row ∧
    (∀ a < row, M' a a ≠ 0 ∧ M' a row = M' a a * y.getD a 0) := by
  have hf := forwardLoop_ok hb (row := row) row 0 M (by omega) (fun a b h => absurd h (Nat.not_lt_zero _))
  rw [← List.range_eq_range'] at hf
  unfold gauss at h
  rcases hf with ⟨U, h1, h2, h3⟩ | ⟨h1, -⟩
  · rw [h1] at h
    obtain ⟨b1, -, b3, -⟩ := backLoop_final row U [] y M' (by simp) h
    have hback := backLoop_ok h3 row U [] (by simp) (fun _ _ _ _ => rfl) (by simp) (by intro a h4 h5; omega)
    rcases hback with ⟨y', M'', g1, g2, g3⟩ | ⟨g1, -⟩
    · change backLoop pyDiv row row U [] = _ at h
      rw [g1] at h
      cases h
      refine ⟨g2, (h2 1 _).1 g3, fun a b h4 h5 h6 => ?_, fun a ha => ?_⟩
      · rw [b1 a b (by omega)]
        exact h3 a b h4 h5 h6
      · rw [b1 a a (by omega)]
        exact b3 a ha
    · change backLoop pyDiv row row U [] = _ at h
      rw [g1] at h
      cases h
  · rw [h1] at h
    cases h

/-- A triangular matrix is not changed by the elimination. -/
theorem forwardLoop_triangular {bigger : Nat → Nat → K → K → Py Bool} (hb : Prefers bigger) {row : Nat} {M : Mat K} (he : Echelon M row row)
    (hd : ∀ a < row, M a a ≠ 0) : ∀ (is : List Nat), (∀ i ∈ is, i < row) → forwardLoop pyDiv bigger row is M = .ok M
  | [], _ => rfl
  | i :: is, hi => by
    have hir := hi i (by simp)
    have hpiv : ∀ ks : List Nat, (∀ k ∈ ks, i < k ∧ k < row) → pivotLoop bigger M i ks (M i i) i = .ok i := by
      intro ks
      induction ks with
      | nil => intro _; rfl
      | cons k ks ih =>
        intro hk
        obtain ⟨k1, k2⟩ := hk k (by simp)
        obtain ⟨r, r1, -, r3⟩ := hb i k (M k i) (M i i)
        rw [r3 (he k i hir k1 k2) (hd i hir)] at r1
        rw [pivotLoop, r1]
        exact ih fun k hk' => hk k (by simp [hk'])
    have helim : ∀ ks : List Nat, (∀ k ∈ ks, i < k ∧ k < row) → elimLoop pyDiv row i ks M = .ok M := by
      intro ks
      induction ks with
      | nil => intro _; rfl
      | cons k ks ih =>
        intro hk
        obtain ⟨k1, k2⟩ := hk k (by simp)
        have hki := he k i hir k1 k2
        have hrow : rowLoop i k 0 (pyRange i (row + 1)) M = M := by
          funext a b
          rw [rowLoop_eq _ _ (by omega) _ _ _ _ _ (nodup_pyRange _ _)]
          split_ifs with c1 c2
          · rw [c1.1, ← c2, hki]
          · rw [zero_mul, add_zero, c1.1]
          · rfl
        rw [elimLoop, hki, neg_zero, pyDiv, if_neg (hd i hir)]
        simp only [bind, Except.bind, zero_mul, hrow]
        exact ih fun k hk' => hk k (by simp [hk'])
    have hswap : swapLoop i i (pyRange i (row + 1)) M = M := by
      funext a b
      rw [swapLoop_eq _ _ _ _ _ _ (nodup_pyRange _ _)]
      split_ifs with h1 h2
      · rw [h2]
      · rfl
      · rfl
    rw [forwardLoop, hpiv _ fun k hk => by rw [mem_pyRange] at hk; omega]
    simp only [bind, Except.bind, hswap]
    rw [helim _ fun k hk => by rw [mem_pyRange] at hk; omega]
    exact forwardLoop_triangular hb he hd is fun j hj => hi j (by simp [hj])

/-- When `gauss` leaves the matrix as it was. -/
theorem gauss_unchanged {bigger : Nat → Nat → K → K → Py Bool} (hb : Prefers bigger) (M : Mat K) (row : Nat) (y : List K) (M' : Mat K)
    (h : gauss pyDiv bigger M row = .ok (y, M')) :
    (∀ a < row, ∀ b ≤ row, M' a b = M a b) ↔ Echelon M row row ∧ ∀ a < row, M a row = M a a * y.getD a 0 := by
  obtain ⟨f1, f2, f3, f4⟩ := gauss_final hb M row y M' h
  constructor
  · intro hM
    refine ⟨fun a b h1 h2 h3 => ?_, fun a ha => ?_⟩
    · rw [← hM a h3 b (by omega)]
      exact f3 a b h1 h2 h3
    · rw [← hM a ha row le_rfl, ← hM a ha a ha.le]
      exact (f4 a ha).2
  · rintro ⟨he, hr⟩
    -- the diagonal has no zero: otherwise the elimination would have raised
    have hd : ∀ a < row, M a a ≠ 0 := by
      by_contra hcon
      push Not at hcon
      obtain ⟨a, ha, h0⟩ := hcon
      have hx := singular_of (M := M) ha (fun c b h1 h2 h3 => he c b (by omega) h2 h3) fun r h1 h2 => by
        rcases Nat.eq_or_lt_of_le h1 with rfl | h1
        · exact h0
        · exact he r a ha h1 h2
      rw [(gauss_field hb M row).2 hx] at h
      cases h
    have hfw := forwardLoop_triangular hb he hd (List.range row) fun i hi => List.mem_range.1 hi
    unfold gauss at h
    rw [hfw] at h
    obtain ⟨b1, -, b3, -⟩ := backLoop_final row M [] y M' (by simp) h
    intro a ha b hb'
    rcases Nat.lt_or_eq_of_le hb' with hlt | rfl
    · exact b1 a b (by omega)
    · rw [(b3 a ha).2, hr a ha]

end Verif.Gauss
