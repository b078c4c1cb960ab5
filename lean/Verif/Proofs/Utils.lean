import Verif.Model.Utils
import Verif.Proofs.Bytes
import Mathlib.GroupTheory.OrderOfElement
import Mathlib.Tactic.Linarith
import Mathlib.Tactic.Ring
import Mathlib.Data.List.Basic
/-! # utils.py -/

namespace Verif.Utils

/-! ### get_power_cycle -/

section cycle
variable {M : Type _} [Monoid M] [DecidableEq M]

theorem cycleLoop_ok (r : M) (k : Nat) (hk : r ^ k = 1) : ∀ (d i fuel : Nat) (o : List M), i + d = k → 
    (∀ j, i ≤ j → j < k → r ^ j ≠ 1) → d < fuel →
    cycleLoop r fuel o (r ^ i) = .ok (o ++ (List.range' (i + 1) d).map (r ^ ·))
  | 0, i, fuel, o, hi, _, hf => by
    obtain ⟨f, rfl⟩ : ∃ f, fuel = f + 1 := ⟨fuel - 1, by omega⟩
    have : r ^ i = 1 := by rw [← hk, ← hi]; rfl
    simp [cycleLoop, this]
  | d + 1, i, fuel, o, hi, hne, hf => by
    obtain ⟨f, rfl⟩ : ∃ f, fuel = f + 1 := ⟨fuel - 1, by omega⟩
    rw [cycleLoop, if_pos (hne i (le_refl _) (by omega)), ← pow_succ,
      cycleLoop_ok r k hk d (i + 1) f _ (by omega) (fun j h1 h2 => hne j (by omega) h2) (by omega)]
    simp [List.range'_succ]

theorem cycleLoop_div (r : M) (h : ∀ j, 0 < j → r ^ j ≠ 1) : ∀ (fuel i : Nat) (o : List M), 0 < i →
    cycleLoop r fuel o (r ^ i) = .error .diverge
  | 0, _, _, _ => rfl
  | f + 1, i, o, hi => by
    rw [cycleLoop, if_pos (h i hi), ← pow_succ]
    exact cycleLoop_div r h f (i + 1) _ (by omega)

theorem getPowerCycle_ok (r : M) (hr : orderOf r ≠ 0) (fuel : Nat) (hf : orderOf r < fuel + 1) :
    getPowerCycle fuel r = .ok ((List.range (orderOf r)).map (r ^ ·)) := by
  obtain ⟨k, hk⟩ : ∃ k, orderOf r = k + 1 := ⟨orderOf r - 1, by omega⟩
  have h := cycleLoop_ok r (orderOf r) (pow_orderOf_eq_one r) k 1 fuel [1, r] (by omega) (by
    intro j h1 h2; exact pow_ne_one_of_lt_orderOf (by omega) h2) (by omega)
  rw [pow_one] at h
  simp only [getPowerCycle, h, bind, Except.bind]
  congr 1
  have e : [1, r] ++ (List.range' (1 + 1) k).map (r ^ ·) = (List.range (k + 2)).map (r ^ ·) := by
    rw [List.range_eq_range', List.range'_succ, List.range'_succ]; simp
  rw [e, hk, List.range_succ, List.map_append]
  simp

theorem getPowerCycle_div (r : M) (hr : orderOf r = 0) (fuel : Nat) : getPowerCycle fuel r = .error .diverge := by
  have h : ∀ j, 0 < j → r ^ j ≠ 1 := fun j hj hc => by
    have := orderOf_dvd_of_pow_eq_one hc
    rw [hr, zero_dvd_iff] at this; omega
  have := cycleLoop_div r h fuel 1 [1, r] (by omega)
  rw [pow_one] at this
  simp only [getPowerCycle, this, bind, Except.bind]

omit [DecidableEq M] in
theorem nodup_powers (r : M) : ((List.range (orderOf r)).map (r ^ ·)).Nodup := by
  rw [List.nodup_map_iff_inj_on List.nodup_range]
  intro a ha b hb hab
  exact pow_injOn_Iio_orderOf (by simpa using ha) (by simpa using hb) hab

end cycle

/-! ### get_pseudorandom_indices -/

theorem extendData_ok (blake : Bytes → Bytes) (hb : ∀ x, blake x ≠ []) (need : Int) : ∀ (fuel : Nat) (data : Bytes),
    need.toNat < fuel + data.length → 1 ≤ fuel →
    ∃ data', extendData blake need fuel data = .ok data' ∧ data <+: data' ∧ need ≤ data'.length
  | 0, _, _, h => by omega
  | fuel + 1, data, h, _ => by
    unfold extendData
    split
    · next hlt =>
      have hpos : 0 < (blake (data.drop (data.length - 32))).length := List.length_pos_iff.2 (hb _)
      obtain ⟨d, h1, h2, h3⟩ := extendData_ok blake hb need fuel (data ++ blake (data.drop (data.length - 32)))
        (by simp only [List.length_append]; omega) (by omega)
      exact ⟨d, h1, (List.prefix_append _ _).trans h2, h3⟩
    · exact ⟨data, rfl, List.prefix_rfl, by omega⟩

/-- The `k`-th big-endian 4-byte word of a byte string. -/
def word (data : Bytes) (k : Nat) : Nat := fromBytes ((data.drop (4 * k)).take 4)

theorem drawWords_ok (data : Bytes) (m : Int) (hm : 0 < m) : ∀ (n k : Nat),
    drawWords data m n k = .ok ((List.range' k n).map fun i => (word data i : Int) % m)
  | 0, k => rfl
  | n + 1, k => by
    have : pyMod (fromBytes ((data.drop (4 * k)).take 4)) m = .ok ((word data k : Int) % m) := by
      rw [pyMod, if_neg (by omega), Int.fmod_eq_emod_of_nonneg _ hm.le]; rfl
    simp only [drawWords, this, drawWords_ok data m hm n (k + 1), bind, Except.bind, List.range'_succ, List.map_cons]

theorem spread_ok (e : Int) (he : 2 ≤ e) : ∀ o : List Int, spread e o = .ok (o.map fun x => x + 1 + x / (e - 1))
  | [] => rfl
  | x :: xs => by
    have : pyDivmod x (e - 1) = .ok (x / (e - 1), x.fmod (e - 1)) := by
      rw [pyDivmod, if_neg (by omega), Int.fdiv_eq_ediv_of_nonneg _ (by omega)]
    simp only [spread, this, spread_ok e he xs, bind, Except.bind, List.map_cons]

theorem getIndices_plain (blake : Bytes → Bytes) (hb : ∀ x, blake x ≠ []) (entropy : Bytes) (modulus count : Int)
    (hm : 0 < modulus) (hm2 : modulus < 2 ^ 24) :
    ∃ data, entropy <+: data ∧ 4 * count ≤ data.length ∧
      getPseudorandomIndices blake entropy modulus count 0 =
        .ok ((List.range count.toNat).map fun i => (word data i : Int) % modulus) := by
  obtain ⟨data, h1, h2, h3⟩ := extendData_ok blake hb (4 * count) ((4 * count).toNat + 1) entropy (by omega) (by omega)
  refine ⟨data, h2, h3, ?_⟩
  simp only [getPseudorandomIndices, pyAssert, hm2, decide_true, if_true, h1, bind, Except.bind,
    drawWords_ok data modulus hm, List.range_eq_range']

theorem real_modulus_pos {m e : Int} (hm : 2 ≤ m) (he : 2 ≤ e) : 0 < m * (e - 1) / e := by
  have : 1 ≤ m * (e - 1) / e := by
    rw [Int.le_ediv_iff_mul_le (by omega)]
    nlinarith
  omega

theorem getIndices_excl (blake : Bytes → Bytes) (hb : ∀ x, blake x ≠ []) (entropy : Bytes) (modulus count e : Int)
    (hm : 2 ≤ modulus) (hm2 : modulus < 2 ^ 24) (he : 2 ≤ e) :
    ∃ data, entropy <+: data ∧ 4 * count ≤ data.length ∧
      getPseudorandomIndices blake entropy modulus count e =
        .ok ((List.range count.toNat).map fun i =>
          let x := (word data i : Int) % (modulus * (e - 1) / e)
          x + 1 + x / (e - 1)) := by
  obtain ⟨data, h1, h2, h3⟩ := extendData_ok blake hb (4 * count) ((4 * count).toNat + 1) entropy (by omega) (by omega)
  refine ⟨data, h2, h3, ?_⟩
  have hd : pyDivmod (modulus * (e - 1)) e = .ok (modulus * (e - 1) / e, (modulus * (e - 1)).fmod e) := by
    rw [pyDivmod, if_neg (by omega), Int.fdiv_eq_ediv_of_nonneg _ (by omega)]
  simp only [getPseudorandomIndices, pyAssert, hm2, decide_true, if_true, h1, bind, Except.bind, hd,
    drawWords_ok data _ (real_modulus_pos hm he), List.range_eq_range', if_neg (by omega : ¬ e = 0), spread_ok e he, List.map_map]
  rfl

theorem extendData_ext (blake : Bytes → Bytes) (need : Int) : ∀ (fuel : Nat) (data d : Bytes),
    extendData blake need fuel data = .ok d → data <+: d
  | 0, _, _, h => by simp [extendData] at h
  | fuel + 1, data, d, h => by
    unfold extendData at h
    split at h
    · exact (List.prefix_append _ _).trans (extendData_ext blake need fuel _ d h)
    · cases h; exact List.prefix_rfl

theorem extendData_mono (blake : Bytes → Bytes) {need need' : Int} (hn : need ≤ need') : ∀ (fuel fuel' : Nat) (data d d' : Bytes),
    extendData blake need fuel data = .ok d → extendData blake need' fuel' data = .ok d' → d <+: d'
  | 0, _, _, _, _, h, _ => by simp [extendData] at h
  | _ + 1, 0, _, _, _, _, h => by simp [extendData] at h
  | fuel + 1, fuel' + 1, data, d, d', h, h' => by
    unfold extendData at h
    split at h
    · next hlt =>
      unfold extendData at h'
      rw [if_pos (by omega)] at h'
      exact extendData_mono blake hn fuel fuel' _ d d' h h'
    · cases h
      exact extendData_ext blake need' _ _ _ h'

theorem word_prefix {d d' : Bytes} (h : d <+: d') {k : Nat} (hk : 4 * k + 4 ≤ d.length) : word d k = word d' k := by
  obtain ⟨t, rfl⟩ := h
  unfold word
  rw [List.drop_append_of_le_length (by omega), List.take_append_of_le_length (by simp; omega)]

/-- Asking for fewer indices gives a prefix. -/
theorem getIndices_prefix (blake : Bytes → Bytes) (hb : ∀ x, blake x ≠ []) (entropy : Bytes) (modulus e : Int) (c c' : Nat)
    (hm : 2 ≤ modulus) (hm2 : modulus < 2 ^ 24) (he : e = 0 ∨ 2 ≤ e) (hc : c ≤ c') :
    ∃ o, getPseudorandomIndices blake entropy modulus c' e = .ok o ∧ getPseudorandomIndices blake entropy modulus c e = .ok (o.take c) := by
  obtain ⟨data, h1, h2, h3⟩ := extendData_ok blake hb (4 * c) ((4 * c : Int).toNat + 1) entropy (by omega) (by omega)
  obtain ⟨data', h1', h2', h3'⟩ := extendData_ok blake hb (4 * c') ((4 * c' : Int).toNat + 1) entropy (by omega) (by omega)
  have hpre := extendData_mono blake (by omega : (4 * c : Int) ≤ 4 * c') _ _ _ _ _ h1 h1'
  have hwords : ∀ m : Int, ((List.range c).map fun i => (word data i : Int) % m) = ((List.range c').map fun i => (word data' i : Int) % m).take c := by
    intro m
    rw [← List.map_take, List.take_range, Nat.min_eq_left hc]
    apply List.map_congr_left
    intro i hi
    rw [word_prefix hpre (by have := List.mem_range.1 hi; omega)]
  rcases he with rfl | he
  · refine ⟨(List.range c').map fun i => (word data' i : Int) % modulus, ?_, ?_⟩
    · simp only [getPseudorandomIndices, pyAssert, hm2, decide_true, if_true, h1', bind, Except.bind,
        drawWords_ok data' modulus (by omega), Int.toNat_natCast, List.range_eq_range']
    · rw [← hwords]
      simp only [getPseudorandomIndices, pyAssert, hm2, decide_true, if_true, h1, bind, Except.bind,
        drawWords_ok data modulus (by omega), Int.toNat_natCast, List.range_eq_range']
  · have hd : pyDivmod (modulus * (e - 1)) e = .ok (modulus * (e - 1) / e, (modulus * (e - 1)).fmod e) := by
      rw [pyDivmod, if_neg (by omega), Int.fdiv_eq_ediv_of_nonneg _ (by omega)]
    refine ⟨((List.range c').map fun i => (word data' i : Int) % (modulus * (e - 1) / e)).map fun x => x + 1 + x / (e - 1), ?_, ?_⟩
    · simp only [getPseudorandomIndices, pyAssert, hm2, decide_true, if_true, h1', bind, Except.bind, hd,
        drawWords_ok data' _ (real_modulus_pos hm he), List.range_eq_range', if_neg (by omega : ¬ e = 0), spread_ok e he, Int.toNat_natCast]
    · rw [← List.map_take, ← hwords]
      simp only [getPseudorandomIndices, pyAssert, hm2, decide_true, if_true, h1, bind, Except.bind, hd,
        drawWords_ok data _ (real_modulus_pos hm he), List.range_eq_range', if_neg (by omega : ¬ e = 0), spread_ok e he, Int.toNat_natCast]

/-- Writing `x = q(e-1) + r`, the index is `q e + (r + 1)` with `1 ≤ r + 1 < e`. -/
theorem index_form {e x : Int} (he : 2 ≤ e) :
    ∃ q r, x = q * (e - 1) + r ∧ 0 ≤ r ∧ r < e - 1 ∧ x + 1 + x / (e - 1) = q * e + (r + 1) := by
  refine ⟨x / (e - 1), x % (e - 1), ?_, Int.emod_nonneg _ (by omega), Int.emod_lt_of_pos _ (by omega), ?_⟩
  · have := Int.emod_add_mul_ediv x (e - 1); nlinarith
  · have := Int.emod_add_mul_ediv x (e - 1); nlinarith

theorem index_good {m e x : Int} (he : 2 ≤ e) (hx : 0 ≤ x) (hxm : x < m * (e - 1) / e) :
    0 ≤ x + 1 + x / (e - 1) ∧ x + 1 + x / (e - 1) < m ∧ ¬ e ∣ x + 1 + x / (e - 1) := by
  have hq0 : 0 ≤ x / (e - 1) := Int.ediv_nonneg hx (by omega)
  obtain ⟨q, r, h1, h2, h3, h4⟩ := index_form (x := x) he
  have hR : (x + 1) * e ≤ m * (e - 1) := by
    have := (Int.le_ediv_iff_mul_le (by omega : (0:Int) < e)).1 (show x + 1 ≤ m * (e - 1) / e by omega)
    exact this
  refine ⟨by omega, ?_, ?_⟩
  · rw [h4]
    by_contra hc
    push Not at hc
    have : m * (e - 1) ≤ (q * e + (r + 1)) * (e - 1) := mul_le_mul_of_nonneg_right hc (by omega)
    rw [h1] at hR
    nlinarith
  · rw [h4]
    intro hd
    have : e ∣ r + 1 := (Int.dvd_add_right (Dvd.intro_left q rfl)).1 hd
    have := Int.le_of_dvd (by omega) this
    omega

theorem index_onto {m e : Int} (he : 2 ≤ e) (hem : e ∣ m) {j : Int} (hj0 : 0 ≤ j) (hjm : j < m) (hje : ¬ e ∣ j) :
    ∃! x, (0 ≤ x ∧ x < m * (e - 1) / e) ∧ x + 1 + x / (e - 1) = j := by
  obtain ⟨c, rfl⟩ := hem
  have hR : e * c * (e - 1) / e = c * (e - 1) := by
    rw [mul_assoc, Int.mul_ediv_cancel_left _ (by omega)]
  rw [hR]
  set q := j / e with hq
  set s := j % e with hs
  have hdec : j = s + e * q := (Int.emod_add_mul_ediv j e).symm
  have hs0 : 0 ≤ s := Int.emod_nonneg _ (by omega)
  have hse : s < e := Int.emod_lt_of_pos _ (by omega)
  have hs1 : s ≠ 0 := fun h => hje (Int.dvd_of_emod_eq_zero h)
  have hq0 : 0 ≤ q := Int.ediv_nonneg hj0 (by omega)
  have hqc : q < c := by
    by_contra hc; push Not at hc
    nlinarith
  have hdiv : ((s - 1) + (e - 1) * q) / (e - 1) = q := by
    rw [Int.add_mul_ediv_left _ _ (by omega), Int.ediv_eq_zero_of_lt (by omega) (by omega), zero_add]
  refine ⟨(s - 1) + (e - 1) * q, ⟨⟨?_, ?_⟩, ?_⟩, ?_⟩
  · have : 0 ≤ (e - 1) * q := mul_nonneg (by omega) hq0
    omega
  · have : (e - 1) * (q + 1) ≤ (e - 1) * c := mul_le_mul_of_nonneg_left (by omega) (by omega)
    nlinarith
  · rw [hdiv, hdec]; ring
  · rintro y ⟨-, hy⟩
    obtain ⟨q', r', h1, h2, h3, h4⟩ := index_form (x := y) he
    rw [h4, hdec] at hy
    have hqq : q' = q := by
      have ha : (q' * e + (r' + 1)) / e = q' := by
        rw [add_comm, Int.add_mul_ediv_right _ _ (by omega), Int.ediv_eq_zero_of_lt (by omega) (by omega), zero_add]
      have hb : (s + e * q) / e = q := by
        rw [Int.add_mul_ediv_left _ _ (by omega), Int.ediv_eq_zero_of_lt (by omega) (by omega), zero_add]
      rw [← ha, hy, hb]
    subst hqq
    have : r' + 1 = s := by nlinarith
    rw [h1, ← this]; ring

/-! ### is_a_power_of_2 -/

theorem isAPowerOf2_zero : ∀ fuel, isAPowerOf2 fuel 0 = .error .diverge
  | 0 => rfl
  | f + 1 => by simp [isAPowerOf2, isAPowerOf2_zero f]

theorem isAPowerOf2_pos : ∀ (fuel : Nat) (x : Nat), 0 < x → x ≤ fuel →
    ∃ b, isAPowerOf2 fuel x = .ok b ∧ (b = true ↔ ∃ k : Nat, x = 2 ^ k)
  | 0, x, h1, h2 => by omega
  | f + 1, x, h1, h2 => by
    unfold isAPowerOf2
    by_cases hx1 : x = 1
    · refine ⟨true, by simp [hx1], by simp only [true_iff]; exact ⟨0, by simpa using hx1⟩⟩
    · rw [if_neg (by exact_mod_cast hx1)]
      have hfm : (x : Int).fmod 2 = ((x % 2 : Nat) : Int) := by
        rw [Int.fmod_eq_emod_of_nonneg _ (by norm_num)]; simp
      have hfd : (x : Int).fdiv 2 = ((x / 2 : Nat) : Int) := by
        rw [Int.fdiv_eq_ediv_of_nonneg _ (by norm_num)]; simp
      by_cases hodd : x % 2 = 1
      · rw [hfm, hodd, if_pos (by norm_num)]
        refine ⟨false, rfl, ?_⟩
        simp only [Bool.false_eq_true, false_iff, not_exists]
        rintro k rfl
        cases k with
        | zero => simp at hx1
        | succ k => rw [pow_succ] at hodd; omega
      · rw [hfm, if_neg (by simp; omega), hfd]
        obtain ⟨b, hb1, hb2⟩ := isAPowerOf2_pos f (x / 2) (by omega) (by omega)
        refine ⟨b, hb1, hb2.trans ⟨?_, ?_⟩⟩
        · rintro ⟨k, hk⟩; exact ⟨k + 1, by rw [pow_succ, ← hk]; omega⟩
        · rintro ⟨k, hk⟩
          cases k with
          | zero => simp at hk; omega
          | succ k => exact ⟨k, by rw [hk, pow_succ]; omega⟩

theorem isAPowerOf2_neg : ∀ (fuel : Nat) (x : Nat), 0 < x → x ≤ fuel → isAPowerOf2 fuel (-(x : Int)) = .ok false
  | 0, x, h1, h2 => by omega
  | f + 1, x, h1, h2 => by
    unfold isAPowerOf2
    rw [if_neg (by omega), Int.fmod_eq_emod_of_nonneg _ (by norm_num), Int.fdiv_eq_ediv_of_nonneg _ (by norm_num)]
    split
    · rfl
    · next h =>
      have : -(x : Int) / 2 = -((x / 2 : Nat) : Int) := by omega
      rw [this]
      exact isAPowerOf2_neg f (x / 2) (by omega) (by omega)

/-! ### get_pseudorandom_ks -/

theorem label_inj {i j : Nat} (hi : i < 10) (hj : j < 10) (h : label i = label j) : i = j := by
  simp only [label, List.cons.injEq, and_true, true_and] at h
  have := congrArg UInt8.toNat h
  simp only [UInt8.toNat_ofNat'] at this
  omega

end Verif.Utils
