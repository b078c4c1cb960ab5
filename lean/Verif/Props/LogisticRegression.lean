import Mathlib.Data.Nat.Digits.Lemmas
import Mathlib.Tactic.IntervalCases
import Verif.Model.LogisticRegression
/-!
# C116: reading the inputs of the logistic regression
-/

namespace Verif.Props
open LogReg

theorem zfill_unsigned (s : List Char) (n : Nat) (h : s.head? ≠ some '-') : zfill s n = List.replicate (n - s.length) '0' ++ s := by
  unfold zfill
  split
  · simp at h
  · rfl

theorem zfill_zero : zfill (getBin 0) 63 = '-' :: List.replicate 62 '0' := by decide

theorem zfill_pos (val : Nat) (h : 0 < val) :
    zfill (getBin val) 63 = List.replicate (63 - (Nat.digits 2 val).length) '0' ++
      (Nat.digits 2 val).reverse.map fun d => if d = 1 then '1' else '0' := by
  have e : getBin val = (Nat.digits 2 val).reverse.map fun d => if d = 1 then '1' else '0' := by rw [getBin, if_pos h]
  rw [zfill_unsigned, e]
  · simp
  · rw [e, List.head?_map]
    cases (Nat.digits 2 val).reverse.head? with
    | none => simp
    | some d => simp only [Option.map_some, ne_eq, Option.some.injEq]; split <;> decide

/-- The character for bit `i` of `val`. -/
theorem bit_char (val : Nat) (hv : val < 2 ^ 63) (i : Nat) (hi : i ≤ 62) (h0 : val = 0 → i < 62) :
    (zfill (getBin val) 63)[62 - i]? = some (if val / 2 ^ i % 2 = 1 then '1' else '0') := by
  rcases Nat.eq_zero_or_pos val with rfl | hp
  · have := h0 rfl
    rw [zfill_zero, show 62 - i = (61 - i) + 1 by omega, List.getElem?_cons_succ, List.getElem?_replicate, if_pos (by omega)]
    simp
  · have hl : (Nat.digits 2 val).length ≤ 63 := by
      rw [Nat.digits_length_le_iff (by omega)]; exact hv
    have hd : (Nat.digits 2 val).getD i 0 = val / 2 ^ i % 2 := Nat.getD_digits val i (by omega)
    rw [zfill_pos val hp, ← hd]
    by_cases hi2 : i < (Nat.digits 2 val).length
    · rw [List.getElem?_append_right (by simp; omega), List.length_replicate, List.getElem?_map, List.getElem?_reverse (by omega)]
      rw [show (Nat.digits 2 val).length - 1 - (62 - i - (63 - (Nat.digits 2 val).length)) = i by omega]
      simp [List.getElem?_eq_getElem hi2]
    · rw [List.getElem?_append_left (by simp; omega), List.getElem?_replicate, if_pos (by omega)]
      simp [List.getElem?_eq_none (Nat.le_of_not_lt hi2)]

theorem append_one (t : List Nat) (v : Nat) : append [t] v = [t ++ [v]] := rfl

theorem digitLoop_bits (s : List Char) (b : Nat → Nat) (hb : ∀ i, b i < 2) : ∀ (js : List Nat) (z : Nat) (t : List Nat),
    (∀ j ∈ js, s[j]? = some (if b j = 1 then '1' else '0')) →
    digitLoop s js z [t] = .ok (if ∀ j ∈ js, b j = 0 then z else 0, [t ++ js.map b])
  | [], z, t, _ => by simp [digitLoop]
  | j :: js, z, t, h => by
    have hj := h j (by simp)
    have h1 := digitLoop_bits s b hb js
    rcases (by have := hb j; omega : b j = 0 ∨ b j = 1) with h2 | h2
    · rw [h2] at hj
      simp [digitLoop, pyIdx, hj, bind, Except.bind, intChar, append_one, h2, h1 z _ fun j hj => h j (List.mem_cons_of_mem _ hj)]
    · rw [h2] at hj
      simp [digitLoop, pyIdx, hj, bind, Except.bind, intChar, append_one, h2, h1 0 _ fun j hj => h j (List.mem_cons_of_mem _ hj)]

/-- **C116**, what the loops read from a pattern below `2^63` (every double but the negative zero and NaNs with a sign): bits 0 to 50 for the
mantissa and bits 52 to 61 for the exponent, lowest first, and whether they are all 0. -/
theorem C116_digits_partial (val : Nat) (hv : val < 2 ^ 63) (t : List Nat) (z : Nat) :
    digitLoop (zfill (getBin val) 63) (rangeDown 62 11) z [t] =
      .ok (if ∀ i < 51, val / 2 ^ i % 2 = 0 then z else 0, [t ++ (List.range 51).map fun i => val / 2 ^ i % 2]) ∧
    digitLoop (zfill (getBin val) 63) (rangeDown 10 0) z [t] =
      .ok (if ∀ i < 10, val / 2 ^ (52 + i) % 2 = 0 then z else 0, [t ++ (List.range 10).map fun i => val / 2 ^ (52 + i) % 2]) := by
  have key : ∀ a b, b < a → a ≤ 62 → (0 < b ∨ b = 0) →
      digitLoop (zfill (getBin val) 63) (rangeDown a b) z [t] =
      .ok (if ∀ i < a - b, val / 2 ^ (62 - a + i) % 2 = 0 then z else 0,
        [t ++ (List.range (a - b)).map fun i => val / 2 ^ (62 - a + i) % 2]) := by
    intro a b hab ha _
    rw [digitLoop_bits _ (fun j => val / 2 ^ (62 - j) % 2) (fun i => Nat.mod_lt _ (by omega))]
    · congr 2
      · congr 1
        simp only [rangeDown, List.mem_map, List.mem_range, forall_exists_index, and_imp, eq_iff_iff]
        constructor
        · intro h i hi
          have := h (a - i) i hi rfl
          rwa [show 62 - (a - i) = 62 - a + i by omega] at this
        · rintro h _ i hi rfl
          rw [show 62 - (a - i) = 62 - a + i by omega]
          exact h i hi
      · congr 2
        rw [rangeDown, List.map_map]
        apply List.map_congr_left
        intro i hi
        rw [List.mem_range] at hi
        rw [Function.comp_apply, show 62 - (a - i) = 62 - a + i by omega]
    · intro j hj
      simp only [rangeDown, List.mem_map, List.mem_range] at hj
      obtain ⟨i, hi, rfl⟩ := hj
      have := bit_char val hv (62 - (a - i)) (by omega) (by omega)
      rwa [show 62 - (62 - (a - i)) = a - i by omega] at this
  refine ⟨?_, key 10 0 (by omega) (by omega) (by omega)⟩
  have := key 62 11 (by omega) (by omega) (by omega)
  simpa using this

/-- The characters the loops meet, for every pattern. -/
theorem char_cases (val j : Nat) (h1 : 1 ≤ j) (h2 : j ≤ 62) :
    ∃ c, (zfill (getBin val) 63)[j]? = some c ∧ (c = '0' ∨ c = '1') := by
  rcases Nat.eq_zero_or_pos val with rfl | hp
  · refine ⟨'0', ?_, Or.inl rfl⟩
    rw [zfill_zero, show j = (j - 1) + 1 by omega, List.getElem?_cons_succ, List.getElem?_replicate, if_pos (by omega)]
  · have hl : j < (zfill (getBin val) 63).length := by rw [zfill_pos val hp]; simp; omega
    refine ⟨_, List.getElem?_eq_getElem hl, ?_⟩
    have hm := List.getElem_mem hl
    have : ∀ c ∈ zfill (getBin val) 63, c = '0' ∨ c = '1' := by
      intro c hc
      rw [zfill_pos val hp, List.mem_append] at hc
      rcases hc with hc | hc
      · exact Or.inl (List.eq_of_mem_replicate hc)
      · obtain ⟨d, -, rfl⟩ := List.mem_map.1 hc
        split
        · exact Or.inr rfl
        · exact Or.inl rfl
    exact this _ hm

theorem digitLoop_total (s : List Char) : ∀ (js : List Nat) (z : Nat) (t : List Nat),
    (∀ j ∈ js, ∃ c, s[j]? = some c ∧ (c = '0' ∨ c = '1')) → ∃ z' t', digitLoop s js z [t] = .ok (z', [t'])
  | [], z, t, _ => ⟨z, t, rfl⟩
  | j :: js, z, t, h => by
    obtain ⟨c, hc, h2⟩ := h j (by simp)
    have h1 := fun z t => digitLoop_total s js z t fun j hj => h j (List.mem_cons_of_mem _ hj)
    rcases h2 with rfl | rfl
    · obtain ⟨z', t', e⟩ := h1 z (t ++ [0])
      exact ⟨z', t', by simp [digitLoop, pyIdx, hc, bind, Except.bind, intChar, append_one, e]⟩
    · obtain ⟨z', t', e⟩ := h1 0 (t ++ [1])
      exact ⟨z', t', by simp [digitLoop, pyIdx, hc, bind, Except.bind, intChar, append_one, e]⟩

theorem readLine_ok (num : Num) (t : List Nat) (out : List Nat) :
    readLine true (some num) [t] out = .ok ([[]], out ++ [0, 0, 0, 0]) := by
  have hr : ∀ a b, a ≤ 62 → ∀ j ∈ rangeDown a b, ∃ c, (zfill (getBin num.val) 63)[j]? = some c ∧ (c = '0' ∨ c = '1') := by
    intro a b ha j hj
    simp only [rangeDown, List.mem_map, List.mem_range] at hj
    obtain ⟨i, hi, rfl⟩ := hj
    exact char_cases _ _ (by omega) (by omega)
  obtain ⟨z1, t1, e1⟩ := digitLoop_total _ (rangeDown 62 11) 1 t (hr 62 11 (by omega))
  obtain ⟨z2, t2, e2⟩ := digitLoop_total _ (rangeDown 10 0) z1 [] (hr 10 0 (by omega))
  have hc : ∀ t, clear [t] = [[]] := fun _ => rfl
  simp [readLine, floatToBinary64, e1, hc, e2, append_one, bind, Except.bind]

theorem readLines_ok : ∀ (nums : List Num) (out : List Nat),
    readLines true (nums.map some) [[]] out = .ok ([[]], out ++ List.replicate (4 * nums.length) 0)
  | [], out => by simp [readLines]
  | x :: nums, out => by
    simp only [List.map_cons, readLines, readLine_ok, bind, Except.bind, readLines_ok nums]
    rw [List.length_cons, show 4 * (nums.length + 1) = 4 + 4 * nums.length by omega, List.replicate_add]
    simp [List.replicate]

/-- **C116** fails: with `struct` imported, `Read_from_File` returns `4 n` empty lists for every file of `n` numbers, because one list
object is stored everywhere and then cleared. -/
theorem C116_alias_refuted (nums : List Num) :
    readFromFile true (nums.map some) = .ok (List.replicate (4 * nums.length) []) := by
  simp [readFromFile, readLines_ok, bind, Except.bind]

/-- **C116** fails as the file stands: `struct` is not imported, so every file that begins with a number raises `NameError`. -/
theorem C116_struct_refuted (num : Num) (lines : List (Option Num)) : readFromFile false (some num :: lines) = .error .nameError := rfl

/-- **C116** fails: whatever the file, and with or without `struct`, `Logistic_Regression` raises. -/
theorem C116_regression_refuted {α : Type _} (imported : Bool) (lines : List (Option Num))
    (rest : List (List Nat) → List Nat × List Nat × Nat × Nat → Py α) :
    ∃ e, logisticRegression imported lines rest = .error e ∧ (e = .nameError ∨ e = .valueError ∨ e = .indexError) := by
  have hread : (∃ n, readFromFile imported lines = .ok (List.replicate (4 * n) [])) ∨ readFromFile imported lines = .error .nameError ∨
      readFromFile imported lines = .error .valueError := by
    cases imported with
    | false =>
      match lines with
      | [] => exact Or.inl ⟨0, rfl⟩
      | none :: _ => exact Or.inr (Or.inr rfl)
      | some _ :: _ => exact Or.inr (Or.inl rfl)
    | true =>
      have : ∀ (lines : List (Option Num)) (out : List Nat), readLines true lines [[]] out = .error .valueError ∨
          ∃ nums : List Num, lines = nums.map some := by
        intro lines
        induction lines with
        | nil => exact fun _ => Or.inr ⟨[], rfl⟩
        | cons x lines ih =>
          intro out
          cases x with
          | none => exact Or.inl rfl
          | some x =>
            rcases ih (out ++ [0, 0, 0, 0]) with h | ⟨nums, rfl⟩
            · left
              simp only [readLines, readLine_ok, bind, Except.bind, h]
            · exact Or.inr ⟨x :: nums, rfl⟩
      rcases this lines [] with h | ⟨nums, rfl⟩
      · right; right
        simp only [readFromFile, h, bind, Except.bind]
      · exact Or.inl ⟨nums.length, C116_alias_refuted nums⟩
  rcases hread with ⟨n, h⟩ | h | h
  · refine ⟨.indexError, ?_, Or.inr (Or.inr rfl)⟩
    cases n with
    | zero => simp [logisticRegression, h, bind, Except.bind, firstArgs, pyIdx]
    | succ n =>
      rw [show 4 * (n + 1) = 4 * n + 4 by omega] at h
      simp [logisticRegression, h, bind, Except.bind, firstArgs, pyIdx, List.replicate]
  · exact ⟨.nameError, by simp only [logisticRegression, h, bind, Except.bind], Or.inl rfl⟩
  · exact ⟨.valueError, by simp only [logisticRegression, h, bind, Except.bind], Or.inr (Or.inl rfl)⟩

/-- **C116** fails: bit 51, the highest bit of the mantissa, is not read, so 1.0 and 1.5 give the same digits (as do any two patterns
that differ in this bit only). -/
theorem C116_lost_bit_refuted (val : Nat) (hv : val < 2 ^ 63) (hb : val / 2 ^ 51 % 2 = 0) (t : List Nat) (z : Nat) :
    (∀ js ∈ [rangeDown 62 11, rangeDown 10 0],
      digitLoop (zfill (getBin val) 63) js z [t] = digitLoop (zfill (getBin (val + 2 ^ 51)) 63) js z [t]) := by
  have hr : val % 2 ^ 52 < 2 ^ 51 := by omega
  have hv' : val + 2 ^ 51 < 2 ^ 63 := by omega
  have lo : ∀ i, i < 51 → (val + 2 ^ 51) / 2 ^ i % 2 = val / 2 ^ i % 2 := by
    intro i hi
    have : 2 ^ 51 = 2 ^ i * (2 * 2 ^ (50 - i)) := by rw [← pow_succ', ← pow_add]; congr 1; omega
    rw [this, Nat.add_mul_div_left _ _ (by positivity), Nat.add_mul_mod_self_left]
  have hi : ∀ i, (val + 2 ^ 51) / 2 ^ (52 + i) % 2 = val / 2 ^ (52 + i) % 2 := by
    intro i
    rw [pow_add, ← Nat.div_div_eq_div_mul, ← Nat.div_div_eq_div_mul, show (val + 2 ^ 51) / 2 ^ 52 = val / 2 ^ 52 by omega]
  obtain ⟨a1, a2⟩ := C116_digits_partial val hv t z
  obtain ⟨b1, b2⟩ := C116_digits_partial (val + 2 ^ 51) hv' t z
  intro js hjs
  simp only [List.mem_cons, List.not_mem_nil, or_false] at hjs
  rcases hjs with rfl | rfl
  · have e1 : (∀ i < 51, val / 2 ^ i % 2 = 0) ↔ ∀ i < 51, (val + 2 ^ 51) / 2 ^ i % 2 = 0 :=
      ⟨fun h i hi => (lo i hi).trans (h i hi), fun h i hi => (lo i hi).symm.trans (h i hi)⟩
    have e2 : ((List.range 51).map fun i => val / 2 ^ i % 2) = (List.range 51).map fun i => (val + 2 ^ 51) / 2 ^ i % 2 :=
      List.map_congr_left fun i hi => (lo i (List.mem_range.1 hi)).symm
    rw [a1, b1, e2]
    simp only [e1]
  · rw [a2, b2]
    simp only [hi]

/-- The pattern of 1.0 is `0x3ff0000000000000` and that of 1.5 is `0x3ff8000000000000`: same digits; 0.25 (`0x3fd0000000000000`) has others. This meets the hypotheses of `C116_digits_partial`. -/
example :
    (∀ js ∈ [rangeDown 62 11, rangeDown 10 0],
      (digitLoop (zfill (getBin 0x3ff0000000000000) 63) js 1 [[]]).toOption = (digitLoop (zfill (getBin 0x3ff8000000000000) 63) js 1 [[]]).toOption) ∧
    (digitLoop (zfill (getBin 0x3ff0000000000000) 63) (rangeDown 10 0) 1 [[]]).toOption = some (0, [[1, 1, 1, 1, 1, 1, 1, 1, 1, 1]]) ∧
    (digitLoop (zfill (getBin 0x3fd0000000000000) 63) (rangeDown 10 0) 1 [[]]).toOption = some (0, [[1, 0, 1, 1, 1, 1, 1, 1, 1, 1]]) ∧
    (readFromFile true [some ⟨false, 0x3fd0000000000000⟩, some ⟨true, 0x3ff8000000000000⟩]).toOption = some [[], [], [], [], [], [], [], []] ∧
    (readFromFile true [some ⟨false, 0x3fd0000000000000⟩, none]).toOption = none := by
  decide +kernel

end Verif.Props
