import Verif.Model.AdditiveFFT
import Verif.Proofs.FFT
import Verif.Proofs.BinaryField
/-! # The additive FFT -/

namespace Verif.AdditiveFFT
open Poly FFT PolyUtils

variable {E : Type} [Field E] [DecidableEq E] (bits : E → List Bool) (ofBits : List Bool → E)

omit [DecidableEq E] in
theorem sumPowers_spec (x : E) : ∀ (bs : List Bool) (i : Nat) (acc : E),
    sumPowers x bs i acc = acc + ∑ j ∈ Finset.range bs.length, if bs.getD j false then x ^ (i + j) else 0
  | [], i, acc => by simp [sumPowers]
  | b :: bs, i, acc => by
    rw [sumPowers, sumPowers_spec x bs (i + 1), List.length_cons, Finset.sum_range_succ']
    simp only [List.getD_cons_succ, List.getD_cons_zero, Nat.add_zero]
    have : ∀ j, i + 1 + j = i + (j + 1) := fun j => by omega
    simp only [this]
    cases b
    · simp
    · simp only [if_true]; ring

theorem taylorK_two_pow (m : Nat) : taylorK (2 ^ (m + 2)) = some m := by
  have h : (List.range (2 ^ (m + 2))).filter (fun x => decide (2 ^ (x + 1) < 2 ^ (m + 2) ∧ 2 ^ (m + 2) ≤ 2 ^ (x + 2))) = [m] := by
    have hm : m < 2 ^ (m + 2) := by
      have := @Nat.lt_two_pow_self (m + 2); omega
    have e : (fun x : Nat => decide (2 ^ (x + 1) < 2 ^ (m + 2) ∧ 2 ^ (m + 2) ≤ 2 ^ (x + 2))) = fun x => decide (x = m) := by
      funext x
      rw [decide_eq_decide, Nat.pow_lt_pow_iff_right (by omega), Nat.pow_le_pow_iff_right (by omega)]
      omega
    rw [e]
    obtain ⟨d, hd⟩ : ∃ d, 2 ^ (m + 2) = m + (d + 1) := ⟨2 ^ (m + 2) - m - 1, by omega⟩
    rw [hd, List.range_add, List.filter_append, List.range_succ_eq_map]
    have h1 : (List.range m).filter (fun x => decide (x = m)) = [] := by
      rw [List.filter_eq_nil_iff]; intro a ha; rw [List.mem_range] at ha; simp; omega
    rw [h1, List.map_cons, List.filter_cons, List.map_map]
    simp only [Nat.add_zero, decide_true, if_true, List.nil_append]
    congr 1
    rw [List.filter_eq_nil_iff]
    intro a ha
    simp only [List.mem_map, Function.comp] at ha
    obtain ⟨b, -, rfl⟩ := ha
    simp
  rw [taylorK, h]; rfl

omit [DecidableEq E] in
theorem taylor_big (P : E) (m : Nat) : taylor bits ofBits P (2 ^ (m + 3)) = .error .typeError := by
  have h8 : (8 : Nat) ≤ 2 ^ (m + 3) := by
    calc (8 : Nat) = 2 ^ 3 := rfl
      _ ≤ 2 ^ (m + 3) := Nat.pow_le_pow_right (by omega) (by omega)
  rw [taylor, if_neg (by omega), taylorK_two_pow (m + 1)]
  simp only
  rw [if_neg (by omega)]

theorem adfft_big (m : Nat) (P : E) (beta : List E) (hb : beta.length = m + 3) :
    adfft bits ofBits (m + 3) P beta = .error .typeError := by
  have e0 : pyIdx beta 0 = .ok (beta[0]'(by omega)) := by simp [pyIdx, List.getElem?_eq_getElem (by omega : 0 < beta.length)]
  have e1 : pyIdx beta (m + 1 + 1) = .ok (beta[m + 1 + 1]'(by omega)) := by
    simp [pyIdx, List.getElem?_eq_getElem (by omega : m + 1 + 1 < beta.length)]
  rw [adfft]
  simp only [e0, e1, bind, Except.bind, taylor_big]

omit [DecidableEq E] in
theorem uvLoop_indep (y y' G : List E) (half : Nat) (hl : y.length = y'.length) : ∀ (n i : Nat),
    (∃ r r', uvLoop y G half n i = .ok r ∧ uvLoop y' G half n i = .ok r' ∧ r.1.length = r'.1.length ∧ r.2.length = r'.2.length) ∨
    (∃ e, uvLoop y G half n i = .error e ∧ uvLoop y' G half n i = .error e)
  | 0, i => Or.inl ⟨_, _, rfl, rfl, rfl, rfl⟩
  | n + 1, i => by
    have idx : ∀ k, (∃ a a', pyIdx y k = .ok a ∧ pyIdx y' k = .ok a') ∨ (pyIdx y k = .error .indexError ∧ pyIdx y' k = .error .indexError) := by
      intro k
      by_cases h : k < y.length
      · left
        exact ⟨y[k], y'[k]'(by omega), by simp [pyIdx, List.getElem?_eq_getElem h], by
          simp [pyIdx, List.getElem?_eq_getElem (by omega : k < y'.length)]⟩
      · right
        exact ⟨by rw [pyIdx, List.getElem?_eq_none (by omega)], by rw [pyIdx, List.getElem?_eq_none (by omega)]⟩
    rw [uvLoop, uvLoop]
    rcases idx (i + half) with ⟨a, a', h1, h2⟩ | ⟨h1, h2⟩
    · rcases idx i with ⟨b, b', h3, h4⟩ | ⟨h3, h4⟩
      · cases hg : pyIdx G i with
        | error e => right; exact ⟨e, by simp only [h1, h3, bind, Except.bind], by simp only [h2, h4, bind, Except.bind]⟩
        | ok g =>
          rcases uvLoop_indep y y' G half hl n (i + 1) with ⟨r, r', h5, h6, h7, h8⟩ | ⟨e, h5, h6⟩
          · left
            refine ⟨((b - g * (a - b)) :: r.1, (a - b) :: r.2), ((b' - g * (a' - b')) :: r'.1, (a' - b') :: r'.2), ?_, ?_, ?_, ?_⟩
            · simp only [h1, h3, h5, bind, Except.bind]
            · simp only [h2, h4, h6, bind, Except.bind]
            · simp [h7]
            · simp [h8]
          · right; exact ⟨e, by simp only [h1, h3, h5, bind, Except.bind], by simp only [h2, h4, h6, bind, Except.bind]⟩
      · right; exact ⟨.indexError, by simp only [h1, h3, bind, Except.bind], by simp only [h2, h4, bind, Except.bind]⟩
    · right; exact ⟨.indexError, by simp only [h1, bind, Except.bind], by simp only [h2, bind, Except.bind]⟩

theorem adfft_one (P b : E) : adfft bits ofBits 1 P [b] =
    .ok [sumPowers b (bits P) 0 (ofBits [false]), ofBits [false]] := rfl

/-- For `m = 2` entry 1 of the result, when there is one, is 0. -/
theorem adfft_two (hz : ofBits [false] = 0) (P : E) (beta r : List E) (h : adfft bits ofBits 2 P beta = .ok r) : r[1]? = some 0 := by
  rw [adfft] at h
  cases h0 : pyIdx beta 0 with
  | error e => rw [h0] at h; cases h
  | ok b0 =>
    cases h1 : pyIdx beta (0 + 1) with
    | error e => rw [h0, h1] at h; cases h
    | ok b1 =>
      simp only [h0, h1, bind, Except.bind] at h
      cases ht : taylor bits ofBits (sumPowers (ofBits [false, true] * b1) (bits P) 0 (ofBits [false])) (2 ^ (0 + 2)) with
      | error e => rw [ht] at h; cases h
      | ok t =>
        rw [ht] at h
        rcases t with t | ⟨g0, g1⟩
        · cases h
        · simp only at h
          cases hd : (pyDiv 1 b1 : Py E) with
          | error e => rw [hd] at h; cases h
          | ok bi =>
            have hr : List.range (0 + 1) = [0] := rfl
            have hr2 : List.range (2 ^ (0 + 1)) = [0, 1] := rfl
            simp only [hd, hr, hr2, pyMap, h0, bind, Except.bind, List.map_cons, List.map_nil] at h
            have hs0 : spanElt [b0 * bi] (intToBinString 0) 0 (ofBits [false]) = .ok (ofBits [false]) := rfl
            have hs1 : spanElt [b0 * bi] (intToBinString 1) 0 (ofBits [false]) = .ok (ofBits [false] + b0 * bi) := rfl
            simp only [hs0, hs1, adfft_one, pyIdx, List.getElem?_cons_zero, List.getElem?_cons_succ, zero_add] at h
            injection h with h
            rw [← h, hz]
            simp

/-- What `adfft` returns for `m = 2`. -/
theorem adfft_two_eq (hz : ofBits [false] = 0) (P b0 b1 : E) (hb : b1 ≠ 0) :
    let G := sumPowers (ofBits [false, true] * b1) (bits P) 0 (ofBits [false])
    let c := fun i => (bits G).getD i false
    let h := ofBits [c 2] + ofBits [c 3]
    let d := (b0 * b1⁻¹) ^ 2 - b0 * b1⁻¹
    let s0 := sumPowers d (bits (ofBits [c 0, c 1] + ofBits [false, true] * h)) 0 (ofBits [false])
    let s1 := sumPowers d (bits (h + ofBits [false, true] * ofBits [c 3])) 0 (ofBits [false])
    adfft bits ofBits 2 P [b0, b1] = .ok [s0, 0, s0 + s1, 0] := by
  intro G c h d s0 s1
  have e1 : pyIdx [b0, b1] 0 = .ok b0 := rfl
  have e2 : pyIdx [b0, b1] (0 + 1) = .ok b1 := rfl
  have ht : taylor bits ofBits G (2 ^ (0 + 2)) = .ok (.inr (ofBits [c 0, c 1] + ofBits [false, true] * h,
      h + ofBits [false, true] * ofBits [c 3])) := by
    rw [taylor, if_neg (by decide), taylorK_two_pow 0]
    rfl
  have hd : (pyDiv 1 b1 : Py E) = .ok b1⁻¹ := by
    unfold pyDiv
    rw [if_neg hb, one_mul]
  rw [adfft]
  simp only [e1, e2, bind, Except.bind]
  rw [show taylor bits ofBits (sumPowers (ofBits [false, true] * b1) (bits P) 0 (ofBits [false])) (2 ^ (0 + 2)) = _ from ht]
  have hr : List.range (0 + 1) = [0] := rfl
  have hr2 : List.range (2 ^ (0 + 1)) = [0, 1] := rfl
  simp only [hd, hr, hr2, pyMap, e1, bind, Except.bind, List.map_cons, List.map_nil]
  have hs0 : spanElt [b0 * b1⁻¹] (intToBinString 0) 0 (ofBits [false]) = .ok (ofBits [false]) := rfl
  have hs1 : spanElt [b0 * b1⁻¹] (intToBinString 1) 0 (ofBits [false]) = .ok (ofBits [false] + b0 * b1⁻¹) := rfl
  simp only [hs0, hs1, adfft_one, pyIdx, List.getElem?_cons_zero, List.getElem?_cons_succ, zero_add]
  rw [hz]
  simp [s0, s1, d, hz]

theorem adfft_two_zero (P b0 : E) : adfft bits ofBits 2 P [b0, 0] = .error .zeroDivision := by
  have e1 : pyIdx [b0, (0 : E)] 0 = .ok b0 := rfl
  have e2 : pyIdx [b0, (0 : E)] (0 + 1) = .ok 0 := rfl
  have ht : ∀ G, ∃ g, taylor bits ofBits G (2 ^ (0 + 2)) = .ok (.inr g) := by
    intro G
    rw [taylor, if_neg (by decide), taylorK_two_pow 0]
    exact ⟨_, rfl⟩
  rw [adfft]
  simp only [e1, e2, bind, Except.bind]
  obtain ⟨g, hg⟩ := ht (sumPowers (ofBits [false, true] * 0) (bits P) 0 (ofBits [false]))
  rw [hg]
  simp [pyDiv]

/-- `adfft_inverse` ignores the values it is given. -/
theorem adfftInv_indep : ∀ (m : Nat) (x y y' : List E), y.length = y'.length →
    adfftInv bits ofBits m x y = adfftInv bits ofBits m x y'
  | 0, _, _, _, _ => rfl
  | 1, x, y, y', h => by
    have idx : ∀ k, (∃ a a', pyIdx y k = .ok a ∧ pyIdx y' k = .ok a') ∨ (pyIdx y k = .error .indexError ∧ pyIdx y' k = .error .indexError) := by
      intro k
      by_cases hk : k < y.length
      · left
        exact ⟨y[k], y'[k]'(by omega), by simp [pyIdx, List.getElem?_eq_getElem hk], by
          simp [pyIdx, List.getElem?_eq_getElem (by omega : k < y'.length)]⟩
      · right
        exact ⟨by rw [pyIdx, List.getElem?_eq_none (by omega)], by rw [pyIdx, List.getElem?_eq_none (by omega)]⟩
    rw [adfftInv, adfftInv]
    rcases idx 1 with ⟨a, a', h1, h2⟩ | ⟨h1, h2⟩
    · rcases idx 0 with ⟨b, b', h3, h4⟩ | ⟨h3, h4⟩
      · simp only [h1, h2, h3, h4, bind, Except.bind]
      · simp only [h1, h2, h3, h4, bind, Except.bind]
    · simp only [h1, h2, bind, Except.bind]
  | m + 2, x, y, y', h => by
    rw [adfftInv, adfftInv]
    congr 1; funext beta
    congr 1; funext bl
    congr 1; funext bi
    dsimp only
    congr 1; funext G
    rcases uvLoop_indep y y' G (2 ^ (m + 1)) h (2 ^ (m + 1)) 0 with ⟨r, r', h5, h6, h7, h8⟩ | ⟨e, h5, h6⟩
    · rw [h5, h6]
      simp only [bind, Except.bind]
      cases pyMap (fun i => spanElt (List.map (fun c => c * c - c) (List.map (fun b => b * bi) (List.take (m + 1) beta)))
        (intToBinString (i + 1)) 0 (ofBits [false])) (List.range (2 ^ (m + 1))) with
      | error e => rfl
      | ok x1 =>
        simp only
        rw [adfftInv_indep (m + 1) x1 r.1 r'.1 h7]
        cases adfftInv bits ofBits (m + 1) x1 r'.1 with
        | error e => rfl
        | ok g0 =>
          simp only
          rw [adfftInv_indep (m + 1) x1 r.2 r'.2 h8]
    · rw [h5, h6]

/-! ### What the inverse returns -/

theorem binLoop_append : ∀ (fuel i : Nat) (s : List Bool), i < fuel → binLoop fuel i s = binLoop (i + 1) i [] ++ s
  | 0, _, _, h => absurd h (by omega)
  | fuel + 1, i, s, h => by
    rw [binLoop, binLoop]
    by_cases h0 : i = 0
    · simp [h0]
    · have h2 : i / 2 < i := Nat.div_lt_self (by omega) (by omega)
      rw [if_neg h0, if_neg h0, binLoop_append fuel (i / 2) _ (by omega), binLoop_append i (i / 2) _ h2, List.append_assoc]
      rfl
  termination_by fuel => fuel

theorem bin_step (i : Nat) (h0 : i / 2 ≠ 0) : intToBinString i = intToBinString (i / 2) ++ [i % 2 == 1] := by
  have hi : i ≠ 0 := by rintro rfl; simp at h0
  rw [intToBinString, intToBinString, if_neg hi, if_neg h0, binLoop, if_neg hi,
    binLoop_append i (i / 2) _ (Nat.div_lt_self (by omega) (by omega))]

theorem bin_pow : ∀ k, intToBinString (2 ^ k) = true :: List.replicate k false
  | 0 => rfl
  | k + 1 => by
    have h : 2 ^ (k + 1) / 2 = 2 ^ k := by rw [pow_succ]; omega
    have h2 : 2 ^ (k + 1) % 2 = 0 := by rw [pow_succ]; omega
    have := Nat.one_le_two_pow (n := k)
    rw [bin_step _ (by omega), h, h2, bin_pow k, List.replicate_succ']
    rfl

theorem bin_pow_add (k : Nat) : intToBinString (2 ^ (k + 1) + 1) = true :: List.replicate k false ++ [true] := by
  have h : (2 ^ (k + 1) + 1) / 2 = 2 ^ k := by rw [pow_succ]; omega
  have h2 : (2 ^ (k + 1) + 1) % 2 = 1 := by rw [pow_succ]; omega
  have := Nat.one_le_two_pow (n := k)
  rw [bin_step _ (by omega), h, h2, bin_pow k]
  rfl

theorem bin_length : ∀ (k i : Nat), i < 2 ^ (k + 1) → (intToBinString i).length ≤ k + 1
  | k, i, h => by
    by_cases h0 : i / 2 = 0
    · have : i = 0 ∨ i = 1 := by omega
      rcases this with rfl | rfl
      · show 1 ≤ k + 1; omega
      · show 1 ≤ k + 1; omega
    · rw [bin_step i h0]
      obtain ⟨k, rfl⟩ : ∃ k', k = k' + 1 := ⟨k - 1, by
        rcases Nat.eq_zero_or_pos k with rfl | hk
        · simp at h; omega
        · omega⟩
      have := bin_length k (i / 2) (by rw [pow_succ] at h; omega)
      simp only [List.length_append, List.length_singleton]
      omega

/-- The sum of the basis elements selected by the digits. -/
def spanVal (basis : List E) (bs : List Bool) (j : Nat) : E :=
  ∑ i ∈ Finset.range bs.length, if bs.getD i false then basis.getD (j + i) 0 else 0

omit [DecidableEq E] in
theorem spanElt_ok (basis : List E) : ∀ (bs : List Bool) (j : Nat) (t : E), (∀ i, bs.getD i false = true → j + i < basis.length) →
    spanElt basis bs j t = .ok (t + spanVal basis bs j)
  | [], j, t, _ => by simp [spanElt, spanVal]
  | b :: bs, j, t, h => by
    have ih := fun t => spanElt_ok basis bs (j + 1) t (fun i hi => by have := h (i + 1) (by simpa using hi); omega)
    have hs : spanVal basis (b :: bs) j = (if b then basis.getD j 0 else 0) + spanVal basis bs (j + 1) := by
      rw [spanVal, spanVal, List.length_cons, Finset.sum_range_succ', add_comm]
      simp only [List.getD_cons_succ, List.getD_cons_zero, Nat.add_zero]
      congr 1
      exact Finset.sum_congr rfl fun i _ => by rw [show j + (i + 1) = j + 1 + i by omega]
    rw [spanElt, hs]
    cases b with
    | false => simp only [Bool.false_eq_true, if_false, bind, Except.bind, ih, zero_add]
    | true =>
      have hj : j < basis.length := h 0 rfl
      have e : pyIdx basis j = .ok (basis.getD j 0) := by simp [pyIdx, List.getElem?_eq_getElem hj, List.getD]
      simp only [if_true, e, bind, Except.bind, ih, add_assoc]

omit [DecidableEq E] in
theorem uvLoop_ok (y G : List E) (half : Nat) : ∀ (n i : Nat), i + n ≤ half → half + half ≤ y.length → half ≤ G.length →
    ∃ r, uvLoop y G half n i = .ok r ∧ r.1.length = n ∧ r.2.length = n
  | 0, i, _, _, _ => ⟨([], []), rfl, rfl, rfl⟩
  | n + 1, i, h1, h2, h3 => by
    obtain ⟨r, hr, l1, l2⟩ := uvLoop_ok y G half n (i + 1) (by omega) h2 h3
    have e1 : pyIdx y (i + half) = .ok y[i + half] := by simp [pyIdx, List.getElem?_eq_getElem (by omega : i + half < y.length)]
    have e2 : pyIdx y i = .ok y[i] := by simp [pyIdx, List.getElem?_eq_getElem (by omega : i < y.length)]
    have e3 : pyIdx G i = .ok G[i] := by simp [pyIdx, List.getElem?_eq_getElem (by omega : i < G.length)]
    exact ⟨_, by simp only [uvLoop, e1, e2, e3, hr, bind, Except.bind]; rfl, by simp [l1], by simp [l2]⟩

omit [DecidableEq E] in
theorem right_get (t : E) : ∀ (n i : Nat) (last : E), i ≤ n → (rightPowers t n last)[i]? = some (last * t ^ i)
  | 0, i, last, h => by
    obtain rfl : i = 0 := by omega
    simp [rightPowers]
  | n + 1, 0, last, _ => by simp [rightPowers]
  | n + 1, i + 1, last, h => by
    rw [rightPowers, List.getElem?_cons_succ, right_get t n i _ (by omega), pow_succ', mul_assoc]

omit [DecidableEq E] in
theorem assemble_ok (bs : List Bool) (s t : E) (right : List E) (z : E) : ∀ (n i : Nat) (g : E),
    (∀ j, j < i + n → right[j]? = some (t ^ j)) →
    assemble bs bs [z, s, 1, 1 + s] right n i g =
      .ok (g + ∑ j ∈ Finset.range n, (s + if bs.getD (i + j) false then 1 else 0) * t ^ (i + j))
  | 0, i, g, _ => by simp [assemble]
  | n + 1, i, g, h => by
    have e2 : pyIdx right i = .ok (t ^ i) := by rw [pyIdx, h i (by omega)]
    have e1 : pyIdx [z, s, 1, 1 + s] ((if bs.getD i false then 1 else 0) + 2 ^ (if bs.getD i false then 1 else 0)) =
        .ok (s + if bs.getD i false then 1 else 0) := by
      cases bs.getD i false
      · simp [pyIdx]; rfl
      · simp [pyIdx, add_comm]
    rw [assemble]
    simp only [e1, e2, bind, Except.bind]
    rw [assemble_ok bs s t right z n (i + 1) _ (fun j hj => h j (by omega)), Finset.sum_range_succ']
    simp only [Nat.add_zero, show ∀ j, i + 1 + j = i + (j + 1) by intro j; omega]
    congr 1
    ring

/-- What `adfft_inverse` computes from `β i = x[2^i]`, for `m = n + 1`. -/
def inverseOf (x : E) : Nat → (Nat → E) → Py E
  | 0, β => .ok (β 0)
  | n + 1, β => if β (n + 1) = 0 then .error .zeroDivision else do
    let s := x * (β (n + 1))⁻¹
    let δ := fun i => (β i * (β (n + 1))⁻¹) ^ 2 - β i * (β (n + 1))⁻¹
    let g ← inverseOf x n (fun i => if i = 0 then δ 0 else δ 0 + δ i)
    .ok (∑ i ∈ Finset.range (2 ^ (n + 1)), (s + if (bits g).getD i false then 1 else 0) * (s ^ 2 - s) ^ i)

theorem inverseOf_congr (x : E) : ∀ (n : Nat) (β β' : Nat → E), (∀ i, i ≤ n → β i = β' i) → inverseOf bits x n β = inverseOf bits x n β'
  | 0, β, β', h => by rw [inverseOf, inverseOf, h 0 le_rfl]
  | n + 1, β, β', h => by
    rw [inverseOf, inverseOf, h (n + 1) le_rfl]
    dsimp only
    rw [inverseOf_congr x n _ (fun i => if i = 0 then (β' 0 * (β' (n + 1))⁻¹) ^ 2 - β' 0 * (β' (n + 1))⁻¹ else
      (β' 0 * (β' (n + 1))⁻¹) ^ 2 - β' 0 * (β' (n + 1))⁻¹ + ((β' i * (β' (n + 1))⁻¹) ^ 2 - β' i * (β' (n + 1))⁻¹))]
    intro i hi
    rw [h 0 (by omega), h i (by omega)]

omit [DecidableEq E] in
theorem spanVal_pow (basis : List E) (k : Nat) : spanVal basis (intToBinString (2 ^ k)) 0 = basis.getD 0 0 := by
  rw [spanVal, bin_pow, List.length_cons, Finset.sum_range_succ']
  rw [Finset.sum_eq_zero]
  · simp
  · intro i hi
    simp

omit [DecidableEq E] in
theorem spanVal_pow_add (basis : List E) (k : Nat) :
    spanVal basis (intToBinString (2 ^ (k + 1) + 1)) 0 = basis.getD 0 0 + basis.getD (k + 1) 0 := by
  rw [spanVal, bin_pow_add]
  simp only [List.cons_append, List.length_cons, List.length_append, List.length_replicate, List.length_nil]
  rw [Finset.sum_range_succ', Finset.sum_range_succ]
  rw [Finset.sum_eq_zero]
  · simp [add_comm]
  · intro i hi
    rw [Finset.mem_range] at hi
    have h' : i < k := by omega
    simp [List.getD, List.getElem?_append, h']

theorem adfftInv_eq (hz : ofBits [false] = 0) (h1 : ofBits [true] = 1) : ∀ (n : Nat) (x y : List E), 2 ^ n < x.length →
    2 ^ (n + 1) ≤ y.length → (n = 0 → x[0]? = x[1]?) →
    adfftInv bits ofBits (n + 1) x y = inverseOf bits (ofBits [false, true]) n (fun i => x.getD (2 ^ i) 0)
  | 0, x, y, hx, hy, h => by
    have hx' : 1 < x.length := by simpa using hx
    have e0 : pyIdx x 0 = .ok x[0] := by simp [pyIdx, List.getElem?_eq_getElem (by omega : 0 < x.length)]
    have e1 : pyIdx x 1 = .ok x[1] := by simp [pyIdx, List.getElem?_eq_getElem hx']
    have h' : x[0] = x[1] := by
      have := h rfl
      rw [List.getElem?_eq_getElem (by omega : 0 < x.length), List.getElem?_eq_getElem hx'] at this
      exact Option.some.inj this
    rw [adfftInv, inverseOf]
    simp only [e0, e1, bind, Except.bind, h', if_true]
    simp [List.getD, List.getElem?_eq_getElem hx']
  | n + 1, x, y, hx, hy, _ => by
    have hb : pyMap (fun i => pyIdx x (2 ^ i)) (List.range (n + 2)) = .ok ((List.range (n + 2)).map fun i => x.getD (2 ^ i) 0) := by
      refine pyMap_ok _ _ _ fun i hi => ?_
      rw [List.mem_range] at hi
      have : 2 ^ i ≤ 2 ^ (n + 1) := Nat.pow_le_pow_right (by omega) (by omega)
      simp [pyIdx, List.getD, List.getElem?_eq_getElem (by omega : 2 ^ i < x.length)]
    generalize hβ : (fun i => x.getD (2 ^ i) 0) = β at hb
    rw [adfftInv, hb, inverseOf]
    have hl : pyIdx ((List.range (n + 2)).map β) (n + 1) = .ok (β (n + 1)) := by simp [pyIdx]
    simp only [bind, Except.bind, hl]
    by_cases h0 : β (n + 1) = 0
    · simp [pyDiv, h0]
    have hd : (pyDiv 1 (β (n + 1)) : Py E) = .ok (β (n + 1))⁻¹ := by
      unfold pyDiv
      rw [if_neg h0, one_mul]
    have ht : ((List.range (n + 2)).map β).take (n + 1) = (List.range (n + 1)).map β := by
      rw [← List.map_take, List.take_range]; simp
    simp only [hd, ht, if_neg h0, List.map_map, Function.comp_def]
    generalize hγ : List.map (fun i => β i * (β (n + 1))⁻¹) (List.range (n + 1)) = γ
    generalize hδ : List.map (fun i => β i * (β (n + 1))⁻¹ * (β i * (β (n + 1))⁻¹) - β i * (β (n + 1))⁻¹) (List.range (n + 1)) = δ
    have lγ : γ.length = n + 1 := by rw [← hγ]; simp
    have lδ : δ.length = n + 1 := by rw [← hδ]; simp
    have gδ : ∀ i, i ≤ n → δ.getD i 0 = (β i * (β (n + 1))⁻¹) ^ 2 - β i * (β (n + 1))⁻¹ := by
      intro i hi
      rw [← hδ]
      simp [List.getD, List.getElem?_range (by omega : i < n + 1), pow_two]
    have hG : pyMap (fun i => spanElt γ (intToBinString i) 0 (ofBits [false])) (List.range (2 ^ (n + 1))) =
        .ok ((List.range (2 ^ (n + 1))).map fun i => ofBits [false] + spanVal γ (intToBinString i) 0) := by
      refine pyMap_ok _ _ _ fun i hi => spanElt_ok _ _ _ _ fun j hj => ?_
      rw [List.mem_range] at hi
      have := bin_length n i hi
      by_contra hc
      rw [List.getD_eq_default _ _ (by omega)] at hj
      simp at hj
    have hx1 : pyMap (fun i => spanElt δ (intToBinString (i + 1)) 0 (ofBits [false])) (List.range (2 ^ (n + 1))) =
        .ok ((List.range (2 ^ (n + 1))).map fun i => ofBits [false] + spanVal δ (intToBinString (i + 1)) 0) := by
      refine pyMap_ok _ _ _ fun i hi => spanElt_ok _ _ _ _ fun j hj => ?_
      rw [List.mem_range] at hi
      rcases Nat.lt_or_ge (i + 1) (2 ^ (n + 1)) with hi' | hi'
      · have := bin_length n (i + 1) hi'
        by_contra hc
        rw [List.getD_eq_default _ _ (by omega)] at hj
        simp at hj
      · rw [show i + 1 = 2 ^ (n + 1) by omega, bin_pow] at hj
        cases j with
        | zero => omega
        | succ j => simp at hj
    simp only [hG, hx1]
    generalize hGv : ((List.range (2 ^ (n + 1))).map fun i => ofBits [false] + spanVal γ (intToBinString i) 0) = G
    obtain ⟨uv, huv, l1, l2⟩ := uvLoop_ok y G (2 ^ (n + 1)) (2 ^ (n + 1)) 0 (by omega) (by rw [pow_succ] at hy; omega)
      (by rw [← hGv]; simp)
    simp only [huv]
    generalize hX : ((List.range (2 ^ (n + 1))).map fun i => ofBits [false] + spanVal δ (intToBinString (i + 1)) 0) = X1
    have lX : X1.length = 2 ^ (n + 1) := by rw [← hX]; simp
    have gX : ∀ i, i < 2 ^ (n + 1) → X1.getD i 0 = spanVal δ (intToBinString (i + 1)) 0 := by
      intro i hi
      rw [← hX, hz]
      simp [List.getD, List.getElem?_range hi]
    have hp : 2 ^ n < 2 ^ (n + 1) := Nat.pow_lt_pow_right (by omega) (by omega)
    have ih := fun v hv => adfftInv_eq hz h1 n X1 v (by omega) hv (by
      rintro rfl
      have a := gX 0 (by decide)
      have b := gX 1 (by decide)
      rw [show (0 + 1 : Nat) = 2 ^ 0 from rfl, spanVal_pow] at a
      rw [show (1 + 1 : Nat) = 2 ^ 1 from rfl, spanVal_pow] at b
      rw [List.getElem?_eq_getElem (by omega), List.getElem?_eq_getElem (by omega)]
      simp only [List.getD, List.getElem?_eq_getElem (by omega : 0 < X1.length), List.getElem?_eq_getElem (by omega : 1 < X1.length),
        Option.getD_some] at a b
      rw [a, b])
    have hβ' := inverseOf_congr bits (ofBits [false, true]) n (fun i => X1.getD (2 ^ i) 0) (fun i => if i = 0 then
        (β 0 * (β (n + 1))⁻¹) ^ 2 - β 0 * (β (n + 1))⁻¹ else
      (β 0 * (β (n + 1))⁻¹) ^ 2 - β 0 * (β (n + 1))⁻¹ + ((β i * (β (n + 1))⁻¹) ^ 2 - β i * (β (n + 1))⁻¹)) (by
      intro i hi
      have h2 : 2 ^ i ≤ 2 ^ n := Nat.pow_le_pow_right (by omega) hi
      rw [gX _ (by omega)]
      cases i with
      | zero => rw [show (2 ^ 0 + 1 : Nat) = 2 ^ 1 from rfl, spanVal_pow, gδ 0 (by omega), if_pos rfl]
      | succ i => rw [spanVal_pow_add, gδ 0 (by omega), gδ (i + 1) hi, if_neg (by omega)])
    rw [ih uv.1 (by omega), ih uv.2 (by omega), hβ']
    cases inverseOf bits (ofBits [false, true]) n _ with
    | error e => rfl
    | ok g =>
      simp only [h1]
      rw [assemble_ok (bits g) _ (ofBits [false, true] * (β (n + 1))⁻¹ * (ofBits [false, true] * (β (n + 1))⁻¹) -
        ofBits [false, true] * (β (n + 1))⁻¹) _ _ _ 0]
      · simp only [hz, zero_add, pow_two]
      · intro j hj
        rw [right_get _ _ _ _ (by omega), one_mul]

end Verif.AdditiveFFT
