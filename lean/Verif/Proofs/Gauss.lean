import Verif.Model.Gauss
import Verif.Spec.Gauss
import Verif.Proofs.Pow
import Verif.Proofs.PolyUtils
import Mathlib.LinearAlgebra.Matrix.ToLinearEquiv
import Mathlib.Algebra.BigOperators.Fin
/-!
# Lemmas about Gaussian elimination
-/

namespace Verif.Gauss
open Poly Finset

set_option linter.unusedSectionVars false

section
variable {P : Type _}

theorem mem_pyRange {a b x : Nat} : x ∈ pyRange a b ↔ a ≤ x ∧ x < b := by
  unfold pyRange
  rw [List.mem_range'_1]
  omega

theorem nodup_pyRange (a b : Nat) : (pyRange a b).Nodup := List.nodup_range' ..

theorem swapLoop_eq (i r : Nat) : ∀ (ks : List Nat) (M : Mat P) (a b : Nat), ks.Nodup →
    swapLoop i r ks M a b = if b ∈ ks then (if a = i then M r b else if a = r then M i b else M a b) else M a b
  | [], M, a, b, _ => by simp [swapLoop]
  | k :: ks, M, a, b, h => by
    obtain ⟨h1, h2⟩ := List.nodup_cons.mp h
    rw [swapLoop, swapLoop_eq i r ks _ a b h2]
    by_cases hb : b = k
    · subst hb
      simp only [h1, if_false, List.mem_cons, true_or, if_true, setE, and_true]
    · simp only [setE, hb, and_false, if_false, List.mem_cons, false_or]

variable [Add P] [Sub P] [Mul P] [Neg P] [Zero P]

theorem rowLoop_eq (i k : Nat) (hik : i ≠ k) (c : P) : ∀ (js : List Nat) (M : Mat P) (a b : Nat), js.Nodup →
    rowLoop i k c js M a b = if a = k ∧ b ∈ js then (if i = b then 0 else M k b + c * M i b) else M a b
  | [], M, a, b, _ => by simp [rowLoop]
  | j :: js, M, a, b, h => by
    obtain ⟨h1, h2⟩ := List.nodup_cons.mp h
    rw [rowLoop, rowLoop_eq i k hik c js _ a b h2]
    by_cases hb : b = j
    · subst hb
      simp only [h1, and_false, if_false, List.mem_cons, true_or, and_true, setE]
    · simp only [setE, hb, and_false, if_false, List.mem_cons, false_or]

theorem substLoop_eq (row i : Nat) (hi : i ≠ row) (x : P) : ∀ (ks : List Nat) (M : Mat P) (a b : Nat), ks.Nodup →
    substLoop row i x ks M a b = if a ∈ ks ∧ b = row then M a row - M a i * x else M a b
  | [], M, a, b, _ => by simp [substLoop]
  | k :: ks, M, a, b, h => by
    obtain ⟨h1, h2⟩ := List.nodup_cons.mp h
    rw [substLoop, substLoop_eq row i hi x ks _ a b h2]
    by_cases ha : a = k
    · subst ha
      by_cases hb : b = row <;> simp [h1, hb, setE]
    · simp [setE, ha]

theorem backLoop_length (div : P → P → Py P) (row : Nat) : ∀ (i : Nat) (M : Mat P) (x : List P) (y : List P) (M' : Mat P),
    backLoop div row i M x = .ok (y, M') → y.length = i + x.length
  | 0, M, x, y, M', h => by
    simp only [backLoop, Except.ok.injEq, Prod.mk.injEq] at h
    simp [← h.1]
  | i + 1, M, x, y, M', h => by
    rw [backLoop] at h
    cases hd : div (M i row) (M i i) with
    | error e => rw [hd] at h; cases h
    | ok v =>
      rw [hd] at h
      have := backLoop_length div row i _ _ _ _ h
      simp at this
      omega

theorem gauss_length {div : P → P → Py P} {bigger : Nat → Nat → P → P → Py Bool} {M : Mat P} {row : Nat} {x : List P}
    {M' : Mat P} (h : gauss div bigger M row = .ok (x, M')) : x.length = row := by
  unfold gauss at h
  cases hf : forwardLoop div bigger row (List.range row) M with
  | error e => rw [hf] at h; cases h
  | ok M1 =>
    rw [hf] at h
    simpa using backLoop_length div row row _ _ _ _ h

end

section field
variable {K : Type _} [Field K] [DecidableEq K]

/-- The vector `x` solves the system whose rows are those of `M`, with the right-hand sides (column `row`) scaled by `t`. -/
def Sol (M : Mat K) (row : Nat) (t : K) (x : Nat → K) : Prop :=
  ∀ r, r < row → ∑ j ∈ range row, M r j * x j = t * M r row

/-- The columns before `i` are zero below the diagonal. -/
def Echelon (M : Mat K) (row i : Nat) : Prop := ∀ a b, b < i → b < a → a < row → M a b = 0

theorem sol_swap {M : Mat K} {row i r : Nat} (hi : i < row) (hr : i ≤ r) (hr' : r < row) (he : Echelon M row i) (t : K)
    (x : Nat → K) : Sol (swapLoop i r (pyRange i (row + 1)) M) row t x ↔ Sol M row t x := by
  have key : ∀ a b, a < row → b ≤ row → swapLoop i r (pyRange i (row + 1)) M a b =
      M (if a = i then r else if a = r then i else a) b := by
    intro a b ha hb
    rw [swapLoop_eq _ _ _ _ _ _ (nodup_pyRange _ _)]
    by_cases hbi : i ≤ b
    · rw [if_pos (mem_pyRange.mpr ⟨hbi, by omega⟩)]
      split_ifs <;> rfl
    · rw [if_neg (fun h => hbi (mem_pyRange.mp h).1)]
      split_ifs with h1 h2
      · subst h1; rw [he a b (by omega) (by omega) hi, he r b (by omega) (by omega) hr']
      · subst h2; rw [he i b (by omega) (by omega) hi, he a b (by omega) (by omega) hr']
      · rfl
  have key2 : ∀ a, a < row → ((∑ j ∈ range row, swapLoop i r (pyRange i (row + 1)) M a j * x j =
      t * swapLoop i r (pyRange i (row + 1)) M a row) ↔ (∑ j ∈ range row, M (if a = i then r else if a = r then i else a) j * x j =
      t * M (if a = i then r else if a = r then i else a) row)) := by
    intro a ha
    rw [key a row ha le_rfl, Finset.sum_congr rfl (fun j hj => by rw [key a j ha (Finset.mem_range.mp hj).le])]
  constructor
  · intro h a ha
    by_cases h1 : a = i
    · subst h1
      have := (key2 r hr').mp (h r hr')
      by_cases h3 : r = a
      · subst h3; simpa using this
      · simpa [h3] using this
    · by_cases h2 : a = r
      · subst h2
        have := (key2 i hi).mp (h i hi)
        simpa using this
      · have := (key2 a ha).mp (h a ha)
        simpa [h1, h2] using this
  · intro h a ha
    rw [key2 a ha]
    apply h
    split_ifs <;> omega

theorem echelon_swap {M : Mat K} {row i r : Nat} (he : Echelon M row i) : Echelon (swapLoop i r (pyRange i (row + 1)) M) row i := by
  intro a b h1 h2 h3
  rw [swapLoop_eq _ _ _ _ _ _ (nodup_pyRange _ _), if_neg (fun h => by have := (mem_pyRange.mp h).1; omega)]
  exact he a b h1 h2 h3

/-- One row operation. -/
theorem sol_row {M : Mat K} {row i k : Nat} (hik : i < k) (hk : k < row) (he : Echelon M row i) (hp : M i i ≠ 0) (t : K)
    (x : Nat → K) :
    Sol (rowLoop i k (-M k i * (M i i)⁻¹) (pyRange i (row + 1)) M) row t x ↔ Sol M row t x := by
  have key : ∀ a b, a < row → b ≤ row → rowLoop i k (-M k i * (M i i)⁻¹) (pyRange i (row + 1)) M a b =
      if a = k then M k b + (-M k i * (M i i)⁻¹) * M i b else M a b := by
    intro a b ha hb
    rw [rowLoop_eq _ _ (by omega) _ _ _ _ _ (nodup_pyRange _ _)]
    by_cases hak : a = k
    · subst hak
      by_cases hbi : i ≤ b
      · rw [if_pos ⟨rfl, mem_pyRange.mpr ⟨hbi, by omega⟩⟩, if_pos rfl]
        split_ifs with h
        · subst h; field_simp; ring
        · rfl
      · rw [if_neg (fun h => hbi (mem_pyRange.mp h.2).1), if_pos rfl, he a b (by omega) (by omega) ha,
          he i b (by omega) (by omega) (by omega)]
        ring
    · rw [if_neg (fun h => hak h.1), if_neg hak]
  set c := -M k i * (M i i)⁻¹ with hc
  have hsum : ∀ a, a < row → ∑ j ∈ range row, rowLoop i k c (pyRange i (row + 1)) M a j * x j =
      if a = k then ∑ j ∈ range row, M k j * x j + c * ∑ j ∈ range row, M i j * x j else ∑ j ∈ range row, M a j * x j := by
    intro a ha
    rw [Finset.sum_congr rfl (fun j hj => by rw [key a j ha (Finset.mem_range.mp hj).le])]
    split_ifs
    · rw [Finset.mul_sum, ← Finset.sum_add_distrib]
      exact Finset.sum_congr rfl fun j _ => by ring
    · rfl
  constructor
  · intro h a ha
    have hi := h i (by omega)
    rw [hsum i (by omega), key i row (by omega) le_rfl, if_neg (by omega), if_neg (by omega)] at hi
    have := h a ha
    rw [hsum a ha, key a row ha le_rfl] at this
    split_ifs at this with hak
    · subst hak
      rw [hi] at this
      linear_combination this
    · exact this
  · intro h a ha
    rw [hsum a ha, key a row ha le_rfl]
    split_ifs with hak
    · subst hak
      rw [h a ha, h i (by omega)]
      ring
    · exact h a ha

theorem elimLoop_ok {row i : Nat} : ∀ (ks : List Nat) (M : Mat K), ks.Nodup → (∀ k ∈ ks, i < k ∧ k < row) → i < row →
    Echelon M row i → M i i ≠ 0 → ∃ M', elimLoop pyDiv row i ks M = .ok M' ∧ (∀ t x, Sol M' row t x ↔ Sol M row t x) ∧
      Echelon M' row i ∧ (∀ a, a < row → a ∈ ks → M' a i = 0) ∧ (∀ a b, a ∉ ks → M' a b = M a b)
  | [], M, _, _, _, he, hp => ⟨M, rfl, fun _ _ => Iff.rfl, he, by simp, fun _ _ _ => rfl⟩
  | k :: ks, M, hn, hk, hi, he, hp => by
    obtain ⟨hn1, hn2⟩ := List.nodup_cons.mp hn
    obtain ⟨hk1, hk2⟩ := hk k (List.mem_cons_self ..)
    set M1 := rowLoop i k (-M k i * (M i i)⁻¹) (pyRange i (row + 1)) M with hM1
    have hval : ∀ a b, M1 a b = if a = k ∧ b ∈ pyRange i (row + 1) then
        (if i = b then 0 else M k b + (-M k i * (M i i)⁻¹) * M i b) else M a b := fun a b =>
      rowLoop_eq _ _ (by omega) _ _ _ _ _ (nodup_pyRange _ _)
    have he1 : Echelon M1 row i := by
      intro a b h1 h2 h3
      rw [hval, if_neg (fun h => by have := (mem_pyRange.mp h.2).1; omega)]
      exact he a b h1 h2 h3
    have hp1 : M1 i i = M i i := by rw [hval, if_neg (fun h => by omega)]
    obtain ⟨M', h1, h2, h3, h4, h5⟩ := elimLoop_ok ks M1 hn2 (fun k' h => hk k' (List.mem_cons_of_mem _ h)) hi he1
      (by rw [hp1]; exact hp)
    refine ⟨M', ?_, fun t x => (h2 t x).trans (sol_row hk1 hk2 he hp t x), h3, ?_, ?_⟩
    · rw [elimLoop, pyDiv, if_neg hp]
      exact h1
    · intro a ha hmem
      rcases List.mem_cons.mp hmem with rfl | hmem
      · rw [h5 a i hn1, hval, if_pos ⟨rfl, mem_pyRange.mpr ⟨le_rfl, by omega⟩⟩, if_pos rfl]
      · exact h4 a ha hmem
    · intro a b hmem
      rw [List.mem_cons, not_or] at hmem
      rw [h5 a b hmem.2, hval, if_neg (fun h => hmem.1 h.1)]

/-- The comparison never prefers a zero entry to a non-zero one. -/
def Prefers (bigger : Nat → Nat → K → K → Py Bool) : Prop :=
  ∀ i k a b, ∃ r, bigger i k a b = .ok r ∧ (a ≠ 0 → b = 0 → r = true) ∧ (a = 0 → b ≠ 0 → r = false)

theorem pivotLoop_ok {bigger : Nat → Nat → K → K → Py Bool} (hb : Prefers bigger) (M : Mat K) (i : Nat) :
    ∀ (ks : List Nat) (m : Nat), ∃ r, pivotLoop bigger M i ks (M m i) m = .ok r ∧ (r = m ∨ r ∈ ks) ∧
      (M r i = 0 → M m i = 0 ∧ ∀ k ∈ ks, M k i = 0)
  | [], m => ⟨m, rfl, .inl rfl, fun h => ⟨h, by simp⟩⟩
  | k :: ks, m => by
    obtain ⟨v, h1, h2, h3⟩ := hb i k (M k i) (M m i)
    rw [pivotLoop, h1]
    cases v with
    | true =>
      obtain ⟨r, g1, g2, g3⟩ := pivotLoop_ok hb M i ks k
      refine ⟨r, g1, .inr (by rcases g2 with rfl | g2 <;> simp_all), fun h => ?_⟩
      obtain ⟨e1, e2⟩ := g3 h
      refine ⟨by_contra fun hm => by simpa using h3 e1 hm, ?_⟩
      intro k' hk'
      rcases List.mem_cons.mp hk' with rfl | hk'
      · exact e1
      · exact e2 k' hk'
    | false =>
      obtain ⟨r, g1, g2, g3⟩ := pivotLoop_ok hb M i ks m
      refine ⟨r, g1, by rcases g2 with rfl | g2 <;> simp_all, fun h => ?_⟩
      obtain ⟨e1, e2⟩ := g3 h
      refine ⟨e1, ?_⟩
      intro k' hk'
      rcases List.mem_cons.mp hk' with rfl | hk'
      · exact by_contra fun hm => by simpa using h2 hm e1
      · exact e2 k' hk'

/-- A column that is zero from the diagonal down makes the matrix singular. -/
theorem singular_of {M : Mat K} {row i : Nat} (hi : i < row) (he : Echelon M row i)
    (hz : ∀ r, i ≤ r → r < row → M r i = 0) : ∃ x, Sol M row 0 x ∧ ∃ j < row, x j ≠ 0 := by
  let A : Matrix (Fin (i + 1)) (Fin (i + 1)) K := Matrix.of fun a b => M a b
  have hdet : A.det = 0 := by
    apply Matrix.det_eq_zero_of_row_eq_zero (Fin.last i)
    intro j
    change M i j = 0
    rcases Nat.lt_or_eq_of_le (Nat.lt_succ_iff.mp j.2) with h | h
    · exact he i j h h hi
    · rw [h]; exact hz i le_rfl hi
  obtain ⟨v, hv0, hv⟩ := Matrix.exists_mulVec_eq_zero_iff.mpr hdet
  refine ⟨fun j => if h : j < i + 1 then v ⟨j, h⟩ else 0, ?_, ?_⟩
  · intro r hr
    rw [zero_mul]
    have hsplit : ∑ j ∈ range row, M r j * (if h : j < i + 1 then v ⟨j, h⟩ else 0) =
        ∑ j ∈ range (i + 1), M r j * (if h : j < i + 1 then v ⟨j, h⟩ else 0) := by
      symm
      apply Finset.sum_subset
      · intro j; simp; omega
      · intro j _ hj
        rw [Finset.mem_range] at hj
        rw [dif_neg hj, mul_zero]
    rw [hsplit]
    by_cases hri : r < i + 1
    · have := congrFun hv ⟨r, hri⟩
      rw [Matrix.mulVec, dotProduct] at this
      rw [Finset.sum_range]
      rw [← show ∑ j, A ⟨r, hri⟩ j * v j = 0 from this]
      exact Finset.sum_congr rfl fun j _ => by rw [dif_pos j.2]; rfl
    · apply Finset.sum_eq_zero
      intro j hj
      rw [Finset.mem_range] at hj
      rcases Nat.lt_or_eq_of_le (Nat.lt_succ_iff.mp hj) with h | h
      · rw [he r j h (by omega) hr, zero_mul]
      · rw [h, hz r (by omega) hr, zero_mul]
  · obtain ⟨j, hj⟩ := Function.ne_iff.mp hv0
    exact ⟨j, by omega, by beta_reduce; rw [dif_pos j.2]; exact hj⟩

theorem forwardLoop_ok {bigger : Nat → Nat → K → K → Py Bool} (hb : Prefers bigger) {row : Nat} : ∀ (n i : Nat) (M : Mat K),
    i + n = row → Echelon M row i →
    (∃ M', forwardLoop pyDiv bigger row (List.range' i n) M = .ok M' ∧ (∀ t x, Sol M' row t x ↔ Sol M row t x) ∧
      Echelon M' row row) ∨
    (forwardLoop pyDiv bigger row (List.range' i n) M = .error .zeroDivision ∧ ∃ x, Sol M row 0 x ∧ ∃ j < row, x j ≠ 0)
  | 0, i, M, hn, he => .inl ⟨M, rfl, fun _ _ => Iff.rfl, by rwa [show i = row by omega] at he⟩
  | n + 1, i, M, hn, he => by
    have hi : i < row := by omega
    obtain ⟨r, g1, g2, g3⟩ := pivotLoop_ok hb M i (pyRange (i + 1) row) i
    have hr : i ≤ r ∧ r < row := by
      rcases g2 with rfl | g2
      · exact ⟨le_rfl, hi⟩
      · have := mem_pyRange.mp g2; omega
    set M1 := swapLoop i r (pyRange i (row + 1)) M with hM1
    have he1 : Echelon M1 row i := echelon_swap he
    have hs1 := fun t x => sol_swap hi hr.1 hr.2 he t x
    have hp : M1 i i = M r i := by
      rw [hM1, swapLoop_eq _ _ _ _ _ _ (nodup_pyRange _ _), if_pos (mem_pyRange.mpr ⟨le_rfl, by omega⟩), if_pos rfl]
    rw [List.range'_succ, forwardLoop, g1]
    by_cases hz : M r i = 0
    · have hcol : ∀ a, i ≤ a → a < row → M a i = 0 := by
        intro a h1 h2
        obtain ⟨e1, e2⟩ := g3 hz
        rcases Nat.eq_or_lt_of_le h1 with rfl | h1
        · exact e1
        · exact e2 a (mem_pyRange.mpr ⟨h1, h2⟩)
      have hsing := singular_of hi he hcol
      by_cases hlast : i + 1 < row
      · right
        refine ⟨?_, hsing⟩
        have : pyRange (i + 1) row = (i + 1) :: pyRange (i + 2) row := by
          unfold pyRange
          rw [show row - (i + 1) = (row - (i + 2)) + 1 by omega, List.range'_succ]
        simp only [bind, Except.bind]
        rw [this, elimLoop, ← hM1, pyDiv, hp, if_pos hz]
        rfl
      · left
        have hn0 : n = 0 := by omega
        subst hn0
        have : pyRange (i + 1) row = [] := by
          unfold pyRange
          rw [show row - (i + 1) = 0 by omega]; rfl
        refine ⟨M1, ?_, hs1, ?_⟩
        · simp only [bind, Except.bind]
          rw [this, elimLoop]
          rfl
        · intro a b h1 h2 h3
          rcases Nat.lt_or_ge b i with h | h
          · exact he1 a b h h2 h3
          · omega
    · obtain ⟨M2, k1, k2, k3, k4, k5⟩ := elimLoop_ok (pyRange (i + 1) row) M1 (nodup_pyRange _ _)
        (fun k h => by have := mem_pyRange.mp h; omega) hi he1 (by rw [hp]; exact hz)
      have he2 : Echelon M2 row (i + 1) := by
        intro a b h1 h2 h3
        rcases Nat.lt_or_eq_of_le (Nat.lt_succ_iff.mp h1) with h | h
        · exact k3 a b h h2 h3
        · subst h; exact k4 a h3 (mem_pyRange.mpr ⟨h2, h3⟩)
      simp only [bind, Except.bind]
      rw [← hM1, k1]
      rcases forwardLoop_ok hb n (i + 1) M2 (by omega) he2 with ⟨M', l1, l2, l3⟩ | ⟨l1, x, l2, l3⟩
      · exact .inl ⟨M', l1, fun t x => (l2 t x).trans ((k2 t x).trans (hs1 t x)), l3⟩
      · exact .inr ⟨l1, x, (hs1 0 x).mp ((k2 0 x).mp l2), l3⟩

theorem backLoop_ok {row : Nat} {U : Mat K} (he : Echelon U row row) : ∀ (i : Nat) (M : Mat K) (x : List K), i + x.length = row →
    (∀ a b, a < row → b < row → M a b = U a b) →
    (∀ a, a < i → M a row = U a row - ∑ j ∈ range x.length, U a (i + j) * x.getD j 0) →
    (∀ a, i ≤ a → a < row → ∑ j ∈ range x.length, U a (i + j) * x.getD j 0 = U a row) →
    (∃ y M', backLoop pyDiv row i M x = .ok (y, M') ∧ y.length = row ∧ Sol U row 1 (fun j => y.getD j 0)) ∨
    (backLoop pyDiv row i M x = .error .zeroDivision ∧ ∃ d < row, U d d = 0)
  | 0, M, x, hl, hM, hr, hs => by
    left
    refine ⟨x, M, rfl, by omega, fun r hr' => ?_⟩
    have := hs r (Nat.zero_le _) hr'
    rw [one_mul, ← this, show x.length = row by omega]
    simp
  | i + 1, M, x, hl, hM, hr, hs => by
    have hi : i < row := by omega
    rw [backLoop, hM i i hi hi]
    by_cases hz : U i i = 0
    · right
      refine ⟨?_, i, hi, hz⟩
      rw [pyDiv, if_pos hz]; rfl
    · rw [pyDiv, if_neg hz]
      set xi := M i row * (U i i)⁻¹ with hxi
      have hcons : ∀ a, ∑ j ∈ range (xi :: x).length, U a (i + j) * (xi :: x).getD j 0 =
          U a i * xi + ∑ j ∈ range x.length, U a (i + 1 + j) * x.getD j 0 := by
        intro a
        rw [List.length_cons, Finset.sum_range_succ']
        simp only [List.getD_cons_succ, List.getD_cons_zero, add_zero]
        rw [add_comm]
        congr 1
        exact Finset.sum_congr rfl fun j _ => by rw [show i + (j + 1) = i + 1 + j by omega]
      have hnd : (List.range i).reverse.Nodup := List.nodup_reverse.mpr List.nodup_range
      have := backLoop_ok he i (substLoop row i xi (List.range i).reverse M) (xi :: x) (by simp; omega) ?_ ?_ ?_
      · exact this
      · intro a b ha hb
        rw [substLoop_eq _ _ (by omega) _ _ _ _ _ hnd, if_neg (fun h => by omega)]
        exact hM a b ha hb
      · intro a ha
        rw [substLoop_eq _ _ (by omega) _ _ _ _ _ hnd, if_pos ⟨by simpa using ha, rfl⟩, hr a (by omega),
          hM a i (by omega) hi, hcons]
        ring
      · intro a ha1 ha2
        rw [hcons]
        rcases Nat.eq_or_lt_of_le ha1 with rfl | h
        · rw [hxi, hr i (by omega)]
          field_simp
          ring
        · rw [hs a h ha2, he a i hi h ha2]; ring

/-- `gauss` over a field: it solves the system when the matrix is non-singular and raises otherwise. -/
theorem gauss_field {bigger : Nat → Nat → K → K → Py Bool} (hb : Prefers bigger) (M : Mat K) (row : Nat) :
    ((∀ x, Sol M row 0 x → ∀ j < row, x j = 0) →
      ∃ y M', gauss pyDiv bigger M row = .ok (y, M') ∧ y.length = row ∧ Sol M row 1 (fun j => y.getD j 0)) ∧
    ((∃ x, Sol M row 0 x ∧ ∃ j < row, x j ≠ 0) → gauss pyDiv bigger M row = .error .zeroDivision) := by
  have h := forwardLoop_ok hb (row := row) row 0 M (by omega) (fun a b h => absurd h (Nat.not_lt_zero _))
  rw [← List.range_eq_range'] at h
  unfold gauss
  rcases h with ⟨U, h1, h2, h3⟩ | ⟨h1, h2⟩
  · rw [h1]
    have hback := backLoop_ok h3 row U [] (by simp) (fun _ _ _ _ => rfl) (by simp) (by intro a h4 h5; omega)
    rcases hback with ⟨y, M', g1, g2, g3⟩ | ⟨g1, d, g2, g3⟩
    · have hs : Sol M row 1 (fun j => y.getD j 0) := (h2 1 _).mp g3
      refine ⟨fun _ => ⟨y, M', g1, g2, hs⟩, fun ⟨x, hx, j, hj, hne⟩ => ?_⟩
      exfalso
      -- a second solution of the triangular system
      have hdiag : ∀ d, d < row → U d d ≠ 0 := by
        intro d hd hz
        have hno := backLoop_fail h3 hd hz
        rw [hno] at g1
        cases g1
      have hx0 : ∀ n, ∀ a, row - n ≤ a → a < row → x a = 0 := by
        intro n
        induction n with
        | zero => intro a h4 h5; omega
        | succ n ih =>
          intro a h4 h5
          rcases Nat.lt_or_ge a (row - n) with h6 | h6
          · have := (h2 0 x).mpr hx a h5
            rw [zero_mul, Finset.sum_eq_single a] at this
            · exact (mul_eq_zero.mp this).resolve_left (hdiag a h5)
            · intro b hb' hne'
              rw [Finset.mem_range] at hb'
              rcases Nat.lt_or_ge b a with h7 | h7
              · rw [h3 a b hb' h7 h5, zero_mul]
              · rw [ih b (by omega) hb', mul_zero]
            · intro h'; exact absurd (Finset.mem_range.mpr h5) h'
          · exact ih a h6 h5
      exact hne (hx0 row j (by rw [Nat.sub_self]; exact Nat.zero_le _) hj)
    · refine ⟨fun hinj => ?_, fun _ => g1⟩
      exfalso
      obtain ⟨x, hx, j, hj, hne⟩ := singular_of (M := U) (i := d) g2 (fun a b h4 h5 h6 => h3 a b (by omega) h5 h6)
        (fun r h4 h5 => by
          rcases Nat.eq_or_lt_of_le h4 with rfl | h4
          · exact g3
          · exact h3 r d g2 h4 h5)
      exact hne (hinj x ((h2 0 x).mp hx) j hj)
  · rw [h1]
    obtain ⟨x, hx, j, hj, hne⟩ := h2
    exact ⟨fun hinj => absurd (hinj x hx j hj) hne, fun _ => rfl⟩
where
  /-- back substitution never succeeds past a zero on the diagonal -/
  backLoop_fail {row : Nat} {U : Mat K} (_ : Echelon U row row) {d : Nat} (hd : d < row) (hz : U d d = 0) :
      backLoop pyDiv row row U [] = .error .zeroDivision := by
    have gen : ∀ (n : Nat) (M : Mat K) (x : List K), n ≤ row → d < n → (∀ a b, a < row → b < row → M a b = U a b) →
        backLoop pyDiv row n M x = .error .zeroDivision := by
      intro n
      induction n with
      | zero => intro M x _ h; omega
      | succ n ih =>
        intro M x hn hdn hM
        rw [backLoop, pyDiv]
        by_cases h : M n n = 0
        · rw [if_pos h]; rfl
        · rw [if_neg h]
          have hdn' : d < n := by
            rcases Nat.lt_or_eq_of_le (Nat.lt_succ_iff.mp hdn) with h' | h'
            · exact h'
            · subst h'; exact absurd ((hM d d hd hd).trans hz) h
          apply ih _ _ (by omega) hdn'
          intro a b ha hb
          rw [substLoop_eq _ _ (by omega) _ _ _ _ _ (List.nodup_reverse.mpr List.nodup_range), if_neg (fun h => by omega)]
          exact hM a b ha hb
    exact gen row U [] le_rfl hd (fun _ _ _ _ => rfl)

end field

/-! ## A change of element type -/

section hom
variable {P Q : Type _} [Add P] [Sub P] [Mul P] [Neg P] [Zero P] [Add Q] [Sub Q] [Mul Q] [Neg Q] [Zero Q]

/-- `φ` respects the operations `gauss` uses. -/
structure Hom (φ : P → Q) (divP : P → P → Py P) (divQ : Q → Q → Py Q) (bigP : Nat → Nat → P → P → Py Bool)
    (bigQ : Nat → Nat → Q → Q → Py Bool) : Prop where
  zero : φ 0 = 0
  add : ∀ a b, φ (a + b) = φ a + φ b
  sub : ∀ a b, φ (a - b) = φ a - φ b
  mul : ∀ a b, φ (a * b) = φ a * φ b
  neg : ∀ a, φ (-a) = -φ a
  div : ∀ a b, divQ (φ a) (φ b) = (divP a b).map φ
  big : ∀ i k a b, bigQ i k (φ a) (φ b) = bigP i k a b

/-- entrywise image of a matrix -/
def mapMat (φ : P → Q) (M : Mat P) : Mat Q := fun a b => φ (M a b)

variable {φ : P → Q} {divP : P → P → Py P} {divQ : Q → Q → Py Q} {bigP : Nat → Nat → P → P → Py Bool}
  {bigQ : Nat → Nat → Q → Q → Py Bool}

theorem mapMat_setE (M : Mat P) (a b : Nat) (v : P) : mapMat φ (setE M a b v) = setE (mapMat φ M) a b (φ v) := by
  funext a' b'
  simp only [mapMat, setE]
  split_ifs <;> rfl

theorem pivotLoop_map (h : Hom φ divP divQ bigP bigQ) (M : Mat P) (i : Nat) : ∀ ks m r,
    pivotLoop bigQ (mapMat φ M) i ks (φ m) r = pivotLoop bigP M i ks m r
  | [], _, _ => rfl
  | k :: ks, m, r => by
    rw [pivotLoop, pivotLoop]
    change (bigQ i k (φ (M k i)) (φ m) >>= _) = _
    rw [h.big]
    cases bigP i k (M k i) m with
    | error e => rfl
    | ok b =>
      cases b
      · exact pivotLoop_map h M i ks m r
      · exact pivotLoop_map h M i ks (M k i) k

theorem swapLoop_map (i r : Nat) : ∀ (ks : List Nat) (M : Mat P), swapLoop i r ks (mapMat φ M) = mapMat φ (swapLoop i r ks M)
  | [], _ => rfl
  | k :: ks, M => by
    rw [swapLoop, swapLoop, ← swapLoop_map i r ks, mapMat_setE, mapMat_setE]
    rfl

theorem rowLoop_map (h : Hom φ divP divQ bigP bigQ) (i k : Nat) (c : P) : ∀ (js : List Nat) (M : Mat P),
    rowLoop i k (φ c) js (mapMat φ M) = mapMat φ (rowLoop i k c js M)
  | [], _ => rfl
  | j :: js, M => by
    rw [rowLoop, rowLoop, ← rowLoop_map h i k c js, mapMat_setE]
    congr 2
    split_ifs
    · exact h.zero.symm
    · rw [h.add, h.mul]; rfl

theorem substLoop_map (h : Hom φ divP divQ bigP bigQ) (row i : Nat) (x : P) : ∀ (ks : List Nat) (M : Mat P),
    substLoop row i (φ x) ks (mapMat φ M) = mapMat φ (substLoop row i x ks M)
  | [], _ => rfl
  | k :: ks, M => by
    rw [substLoop, substLoop, ← substLoop_map h row i x ks, mapMat_setE, h.sub, h.mul]
    rfl

theorem elimLoop_map (h : Hom φ divP divQ bigP bigQ) (row i : Nat) : ∀ (ks : List Nat) (M : Mat P),
    elimLoop divQ row i ks (mapMat φ M) = (elimLoop divP row i ks M).map (mapMat φ)
  | [], _ => rfl
  | k :: ks, M => by
    rw [elimLoop, elimLoop]
    change (divQ (-φ (M k i)) (φ (M i i)) >>= _) = _
    rw [← h.neg, h.div]
    cases divP (-M k i) (M i i) with
    | error e => rfl
    | ok c =>
      change elimLoop divQ row i ks (rowLoop i k (φ c) _ (mapMat φ M)) = _
      rw [rowLoop_map h, elimLoop_map h row i ks]
      rfl

theorem forwardLoop_map (h : Hom φ divP divQ bigP bigQ) (row : Nat) : ∀ (is : List Nat) (M : Mat P),
    forwardLoop divQ bigQ row is (mapMat φ M) = (forwardLoop divP bigP row is M).map (mapMat φ)
  | [], _ => rfl
  | i :: is, M => by
    rw [forwardLoop, forwardLoop]
    change (pivotLoop bigQ (mapMat φ M) i _ (φ (M i i)) i >>= _) = _
    rw [pivotLoop_map h]
    cases pivotLoop bigP M i (pyRange (i + 1) row) (M i i) i with
    | error e => rfl
    | ok r =>
      change (elimLoop divQ row i _ (swapLoop i r _ (mapMat φ M)) >>= _) = ((elimLoop divP row i _ (swapLoop i r _ M)) >>= _).map _
      rw [swapLoop_map, elimLoop_map h]
      cases elimLoop divP row i (pyRange (i + 1) row) (swapLoop i r (pyRange i (row + 1)) M) with
      | error e => rfl
      | ok M' => exact forwardLoop_map h row is M'

theorem backLoop_map (h : Hom φ divP divQ bigP bigQ) (row : Nat) : ∀ (i : Nat) (M : Mat P) (x : List P),
    backLoop divQ row i (mapMat φ M) (x.map φ) = (backLoop divP row i M x).map (fun r => (r.1.map φ, mapMat φ r.2))
  | 0, _, _ => rfl
  | i + 1, M, x => by
    rw [backLoop, backLoop]
    change (divQ (φ (M i row)) (φ (M i i)) >>= _) = _
    rw [h.div]
    cases divP (M i row) (M i i) with
    | error e => rfl
    | ok c =>
      change backLoop divQ row i (substLoop row i (φ c) _ (mapMat φ M)) (φ c :: x.map φ) = _
      rw [substLoop_map h, ← List.map_cons, backLoop_map h row i]
      rfl

theorem gauss_map (h : Hom φ divP divQ bigP bigQ) (M : Mat P) (row : Nat) :
    gauss divQ bigQ (mapMat φ M) row = (gauss divP bigP M row).map (fun r => (r.1.map φ, mapMat φ r.2)) := by
  unfold gauss
  rw [forwardLoop_map h]
  cases forwardLoop divP bigP row (List.range row) M with
  | error e => rfl
  | ok M' => exact backLoop_map h row row M' []

end hom

/-! ## Constant polynomials -/

section const
variable {K : Type _} [Field K] [DecidableEq K]

theorem const_val (a : K) : (const a).val = Polynomial.C a := by
  rw [const, CPoly.val_mk, toPoly_cons, toPoly_nil, mul_zero, add_zero]

theorem ctor_const (a : K) : ctor [a] = if a = 0 then [] else [a] := by
  by_cases h : a = 0
  · subst h; simp [ctor, strip, stripLen]
  · simp [ctor, strip, stripLen, h]

theorem divPoly_const (a b : K) : divPoly (const a) (const b) = (pyDiv a b).map const := by
  unfold divPoly pyDiv
  by_cases hb : b = 0
  · subst hb
    rw [if_pos rfl, truediv]
    simp [const, CPoly.mk, ctor_const, isZero, Except.map, bind, Except.bind]
  · have hne : (const b).1 ≠ [] := by simp [const, CPoly.mk, ctor_const, hb]
    obtain ⟨q, h1, h2, h3⟩ := truediv_eq (const a).2 (const b).2 hne
    rw [if_neg hb, h1]
    simp only [bind, Except.bind, Except.map]
    congr 1
    apply CPoly.val_inj
    rw [CPoly.val_mk, const_val, h3]
    change (const a).val / (const b).val = _
    rw [const_val, const_val, Polynomial.div_C, ← Polynomial.C_mul]

theorem hom_const (same : Nat → Nat → Nat → Bool) (sw : K → Bool) :
    Hom const pyDiv divPoly (fun i k a b => .ok (maxPoly (same i k) sw (ctor [a]) (ctor [b])))
      (fun i k a b => .ok (maxPoly (same i k) sw a.1 b.1)) where
  zero := CPoly.val_inj (by simp [const_val])
  add a b := CPoly.val_inj (by simp [const_val])
  sub a b := CPoly.val_inj (by simp [const_val])
  mul a b := CPoly.val_inj (by simp [const_val])
  neg a := CPoly.val_inj (by simp [const_val])
  div := divPoly_const
  big _ _ _ _ := rfl

theorem prefers_const (same : Nat → Nat → Nat → Bool) (sw : K → Bool) :
    Prefers (fun i k a b : _ => (.ok (maxPoly (same i k) sw (ctor [a]) (ctor [b])) : Py Bool)) := by
  intro i k a b
  refine ⟨_, rfl, fun ha hb => ?_, fun ha hb => ?_⟩
  · subst hb; simp [maxPoly, ctor_const, ha, degree, pabs]
  · subst ha; simp [maxPoly, ctor_const, hb, degree, pabs]

theorem mooreMatrix_eq {P : Type _} [CommRing P] [DecidableEq P] (b : List P) :
    mooreMatrix b = .ok fun i j => ((b.map fun x => x :: (List.range b.length).map fun j => x ^ 2 ^ (j + 1)).getD i []).getD j 0 := by
  unfold mooreMatrix
  rw [PolyUtils.pyMap_ok _ (fun x => x :: (List.range b.length).map fun j => x ^ 2 ^ (j + 1))]
  · rfl
  · intro x _
    rw [PolyUtils.pyMap_ok _ (fun j => x ^ 2 ^ (j + 1))]
    · rfl
    · intro j _
      exact pyPow_spec x _

end const
end Verif.Gauss
