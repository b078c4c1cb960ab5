import Verif.Model.BinaryField
import Verif.Proofs.FiniteField
import Verif.Spec.Bits
/-! # Binary-field operations -/

set_option linter.unusedSectionVars false

namespace Verif.FF
open Poly Spec
open scoped Polynomial
open Polynomial (C X)

/-! ### Bits -/

theorem bitsVal_append : ∀ l m : List Bool, bitsVal (l ++ m) = bitsVal l + 2 ^ l.length * bitsVal m
  | [], m => by simp [bitsVal]
  | b :: l, m => by
    simp only [List.cons_append, bitsVal, bitsVal_append l m, List.length_cons, pow_succ]; ring

theorem bitsVal_lt : ∀ l : List Bool, bitsVal l < 2 ^ l.length
  | [] => by simp [bitsVal]
  | b :: l => by
    have := bitsVal_lt l
    have hb : b.toNat ≤ 1 := Bool.toNat_le b
    simp only [bitsVal, List.length_cons, pow_succ]; omega

theorem bitsVal_replicate (n : Nat) : bitsVal (List.replicate n false) = 0 := by
  induction n with
  | zero => rfl
  | succ n ih => simp [List.replicate_succ, bitsVal, ih]

theorem bitsVal_le_of_getLast {l : List Bool} (h : l.getLast? = some true) : 2 ^ (l.length - 1) ≤ bitsVal l := by
  obtain ⟨m, rfl⟩ := List.getLast?_eq_some_iff.1 h
  rw [bitsVal_append]; simp [bitsVal]

theorem bitsVal_split (l : List Bool) (d : Nat) (hd : d < l.length) :
    bitsVal l = bitsVal (l.take d) + 2 ^ d * (l[d].toNat + 2 * bitsVal (l.drop (d + 1))) := by
  conv_lhs => rw [← List.take_append_drop d l]
  rw [bitsVal_append, List.drop_eq_getElem_cons hd]
  simp [bitsVal, Nat.min_eq_left hd.le]

theorem bitsVal_compare (l m : List Bool) (d : Nat) (hl : d < l.length) (hm : d < m.length)
    (hne : l[d] ≠ m[d]) (htop : l.drop (d + 1) = m.drop (d + 1)) :
    bitsVal l ≤ bitsVal m ↔ l[d] = false := by
  rw [bitsVal_split l d hl, bitsVal_split m d hm, htop]
  have h1 : bitsVal (l.take d) < 2 ^ d := by
    have := bitsVal_lt (l.take d); rwa [List.length_take, Nat.min_eq_left hl.le] at this
  have h2 : bitsVal (m.take d) < 2 ^ d := by
    have := bitsVal_lt (m.take d); rwa [List.length_take, Nat.min_eq_left hm.le] at this
  generalize bitsVal (m.drop (d + 1)) = t
  rw [Nat.mul_add, Nat.mul_add]
  cases hb : l[d] <;> cases hc : m[d] <;> simp_all <;> omega

/-! ### add_binary_nums -/

abbrev dig (c : Char) : Bool := decide (c = '1')

theorem addLoop_spec : ∀ (l : List (Char × Char)) (carry : Nat) (res : List Char), carry ≤ 1 →
    (∀ c ∈ res, c = '0' ∨ c = '1') →
    (addLoop l carry res).1 ≤ 1 ∧ (addLoop l carry res).2.length = res.length + l.length ∧
    (∀ c ∈ (addLoop l carry res).2, c = '0' ∨ c = '1') ∧
    bitsVal ((addLoop l carry res).2.reverse.map dig) + 2 ^ (addLoop l carry res).2.length * (addLoop l carry res).1 =
      bitsVal (res.reverse.map dig) + 2 ^ res.length *
        (carry + bitsVal (l.map fun p => dig p.1) + bitsVal (l.map fun p => dig p.2))
  | [], carry, res, hc, hres => ⟨hc, by simp [addLoop], hres, by simp [addLoop, bitsVal]⟩
  | (x, y) :: rest, carry, res, hc, hres => by
    set r := carry + (if x = '1' then 1 else 0) + (if y = '1' then 1 else 0) with hr
    have hr' : r = carry + (dig x).toNat + (dig y).toNat := by
      rw [hr]; by_cases hx : x = '1' <;> by_cases hy : y = '1' <;> simp [dig, hx, hy]
    have hb := Bool.toNat_le (dig x)
    have hb' := Bool.toNat_le (dig y)
    obtain ⟨h1, h2, h3, h4⟩ := addLoop_spec rest (if r < 2 then 0 else 1) ((if r % 2 = 1 then '1' else '0') :: res)
      (by split <;> omega) (by
        intro c hc'
        rcases List.mem_cons.1 hc' with h | h
        · rw [h]; split <;> simp
        · exact hres c h)
    have e : addLoop ((x, y) :: rest) carry res = addLoop rest (if r < 2 then 0 else 1) ((if r % 2 = 1 then '1' else '0') :: res) := rfl
    rw [e]
    refine ⟨h1, by rw [h2]; simp; omega, h3, ?_⟩
    rw [h4]
    simp only [List.reverse_cons, List.map_append, List.map_cons, List.map_nil, bitsVal_append, List.length_map,
      List.length_reverse, List.length_cons, pow_succ, bitsVal]
    have hd : (dig (if r % 2 = 1 then '1' else '0')).toNat = r % 2 := by
      rcases Nat.mod_two_eq_zero_or_one r with h | h <;> simp [h]
    have hcar : (if r < 2 then 0 else 1) = r / 2 := by split <;> omega
    rw [hd, hcar]
    have : r = r % 2 + 2 * (r / 2) := by omega
    generalize r % 2 = u at *
    generalize r / 2 = v at *
    have key : u + 2 * v = carry + (dig x).toNat + (dig y).toNat := by omega
    generalize (dig x).toNat = dx at *
    generalize (dig y).toNat = dy at *
    have : carry + (dx + 2 * bitsVal (rest.map fun p => dig p.1)) + (dy + 2 * bitsVal (rest.map fun p => dig p.2)) =
      (u + 2 * v) + 2 * bitsVal (rest.map fun p => dig p.1) + 2 * bitsVal (rest.map fun p => dig p.2) := by omega
    rw [this]; ring

theorem zfill_val (s : List Char) (n : Nat) : bitsVal ((zfill s n).reverse.map dig) = bitsVal (s.reverse.map dig) := by
  have : dig '0' = false := by decide
  simp only [zfill, List.reverse_append, List.map_append, bitsVal_append, List.reverse_replicate, List.map_replicate, this,
    bitsVal_replicate, mul_zero, add_zero]

theorem zfill_length (s : List Char) (n : Nat) : (zfill s n).length = max n s.length := by
  simp [zfill]; omega

theorem addBinaryNums_spec (x y : List Char) :
    bitsVal ((addBinaryNums x y).map dig) = bitsVal (x.reverse.map dig) + bitsVal (y.reverse.map dig) ∧
    (∀ c ∈ addBinaryNums x y, c = '0' ∨ c = '1') ∧
    (addBinaryNums x y).length = max x.length y.length +
      (if 2 ^ max x.length y.length ≤ bitsVal (x.reverse.map dig) + bitsVal (y.reverse.map dig) then 1 else 0) := by
  set n := max x.length y.length with hn
  have hx : (zfill x n).length = n := by rw [zfill_length]; omega
  have hy : (zfill y n).length = n := by rw [zfill_length]; omega
  have hz : ((zfill x n).zip (zfill y n)).reverse = (zfill x n).reverse.zip (zfill y n).reverse := by
    exact List.reverse_zipWith (by omega)
  obtain ⟨h1, h2, h3, h4⟩ := addLoop_spec ((zfill x n).zip (zfill y n)).reverse 0 [] (by omega) (by simp)
  have hA : ((zfill x n).zip (zfill y n)).reverse.map (fun p => dig p.1) = (zfill x n).reverse.map dig := by
    rw [hz]
    have := List.map_fst_zip (l₁ := (zfill x n).reverse) (l₂ := (zfill y n).reverse) (by simp; omega)
    conv_rhs => rw [← this]
    rw [List.map_map]; rfl
  have hB : ((zfill x n).zip (zfill y n)).reverse.map (fun p => dig p.2) = (zfill y n).reverse.map dig := by
    rw [hz]
    have := List.map_snd_zip (l₁ := (zfill x n).reverse) (l₂ := (zfill y n).reverse) (by simp; omega)
    conv_rhs => rw [← this]
    rw [List.map_map]; rfl
  rw [hA, hB, zfill_val, zfill_val] at h4
  set cr := addLoop ((zfill x n).zip (zfill y n)).reverse 0 [] with hcr
  have hlen : cr.2.length = n := by rw [h2]; simp; omega
  rw [hlen] at h4
  simp only [List.reverse_nil, List.map_nil, bitsVal, List.length_nil, pow_zero, one_mul, zero_add] at h4
  have hlt : bitsVal (cr.2.reverse.map dig) < 2 ^ n := by
    have := bitsVal_lt (cr.2.reverse.map dig); simpa [hlen] using this
  have e : addBinaryNums x y = (zfill (if cr.1 ≠ 0 then '1' :: cr.2 else cr.2) n).reverse := rfl
  have hres : ∀ c ∈ (if cr.1 ≠ 0 then '1' :: cr.2 else cr.2), c = '0' ∨ c = '1' := by
    intro c hc
    split at hc
    · rcases List.mem_cons.1 hc with h | h
      · exact Or.inr h
      · exact h3 c h
    · exact h3 c hc
  have hrl : (if cr.1 ≠ 0 then '1' :: cr.2 else cr.2).length = n + cr.1 := by
    split
    · simp; omega
    · omega
  refine ⟨?_, ?_, ?_⟩
  · rw [e, zfill_val]
    split
    · rw [List.reverse_cons, List.map_append, bitsVal_append]
      have h1' : cr.1 = 1 := by omega
      rw [h1'] at h4
      have : (dig '1').toNat = 1 := by decide
      simp only [bitsVal, hlen, List.length_map, List.length_reverse, List.map_cons, List.map_nil, this]; omega
    · have h1' : cr.1 = 0 := by omega
      rw [h1'] at h4; omega
  · rw [e]
    intro c hc
    rw [List.mem_reverse, zfill, List.mem_append] at hc
    rcases hc with h | h
    · exact Or.inl (List.eq_of_mem_replicate h)
    · exact hres c h
  · rw [e, List.length_reverse, zfill_length, hrl, ← h4]
    have : cr.1 = 0 ∨ cr.1 = 1 := by omega
    rcases this with h | h
    · rw [h, mul_zero, add_zero, if_neg (by omega)]; omega
    · rw [h, mul_one, if_pos (by omega)]; omega

/-! ### Over Z/2 -/

section two
variable {K : Type _} [Field K] [DecidableEq K]

/-- The number whose binary digits are the coefficients. -/
abbrev enc (a : List K) : List Bool := a.map bit

theorem char_two (h2 : ∀ c : K, c = 0 ∨ c = 1) : (1 : K) + 1 = 0 := by
  rcases h2 (1 + 1) with h | h
  · exact h
  · exfalso; exact one_ne_zero (add_left_cancel (h.trans (add_zero 1).symm))

theorem add_eq_zero_iff_two (h2 : ∀ c : K, c = 0 ∨ c = 1) (a b : K) : a + b = 0 ↔ a = b := by
  have h := char_two h2
  rcases h2 a with rfl | rfl <;> rcases h2 b with rfl | rfl <;> simp [h]

theorem bit_inj (h2 : ∀ c : K, c = 0 ∨ c = 1) (a b : K) : bit a = bit b ↔ a = b := by
  rcases h2 a with rfl | rfl <;> rcases h2 b with rfl | rfl <;> simp [bit]

theorem enc_last (h2 : ∀ c : K, c = 0 ∨ c = 1) {a : List K} (ha : Canon a) (h0 : a ≠ []) : (enc a).getLast? = some true := by
  have := ha (a.getLast h0) (List.getLast?_eq_some_getLast h0)
  have h1 : a.getLast h0 = 1 := by rcases h2 (a.getLast h0) with h | h; exact absurd h this; exact h
  rw [List.getLast?_map, List.getLast?_eq_some_getLast h0, h1]; simp [bit]

theorem fqLT_spec (h2 : ∀ c : K, c = 0 ∨ c = 1) (f : List K) [hf : IsModulus f] (a b : List K) (ha : Canon a) (hb : Canon b)
    (_hla : a.length < f.length) (hlb : b.length < f.length) :
    ∃ r, fqLT f a b = .ok r ∧ (r = 0 ∨ r = 1) ∧ (r = 1 ↔ bitsVal (enc a) ≤ bitsVal (enc b)) := by
  unfold fqLT
  have small : ∀ {a b : List K}, Canon b → a.length < b.length → bitsVal (enc a) < bitsVal (enc b) := by
    intro a b hb h
    have h0 : b ≠ [] := by rintro rfl; simp at h
    have h1 := bitsVal_le_of_getLast (enc_last h2 hb h0)
    have h3 := bitsVal_lt (enc a)
    rw [List.length_map] at h1 h3
    have : (2:Nat) ^ a.length ≤ 2 ^ (b.length - 1) := Nat.pow_le_pow_right (by omega) (by omega)
    omega
  by_cases h1 : degree a > degree b
  · rw [if_pos h1]
    refine ⟨0, rfl, Or.inl rfl, ?_⟩
    have := small ha (by unfold degree pabs at h1; omega : b.length < a.length)
    constructor
    · intro h; cases h
    · intro h; omega
  rw [if_neg h1]
  by_cases h3 : degree b > degree a
  · rw [if_pos h3]
    have := small hb (by unfold degree pabs at h3; omega : a.length < b.length)
    exact ⟨1, rfl, Or.inr rfl, by simp; omega⟩
  rw [if_neg h3]
  have hlen : a.length = b.length := by unfold degree pabs at h1 h3; omega
  set x := add a b with hx
  have hxc : Canon x := canon_add a b
  have hcoef : ∀ i, (toPoly x).coeff i = a.getD i 0 + b.getD i 0 := by
    intro i; rw [hx, toPoly_add, Polynomial.coeff_add, coeff_toPoly, coeff_toPoly]
  have hxl : x.length ≤ a.length := by
    apply length_le_of_canon hxc
    intro i hi
    rw [hcoef]
    simp [List.getElem?_eq_none hi, List.getElem?_eq_none (hlen ▸ hi)]
  have hadd : fqAdd f a b = .ok x := by
    show mod x f = _
    rw [(mod_eq_red f hxc).1, red_small f hxc (by omega)]
  simp only [hadd, bind, Except.bind]
  have h00 : ofElt (0 : K) = [] := (toPoly_eq_zero (canon_ctor _)).1 (by rw [toPoly_ctor]; simp [toPoly_cons, toPoly_nil])
  by_cases hx0 : x = []
  · have : fqEq x (ofElt 0) = true := by rw [fqEq, eq_iff, hx0, h00]
    rw [if_pos this]
    have hab : a = b := by
      apply List.ext_getElem hlen
      intro i hi hi'
      have := hcoef i
      rw [hx0, toPoly_nil, Polynomial.coeff_zero] at this
      simp only [List.getD_eq_getElem?_getD, List.getElem?_eq_getElem hi, List.getElem?_eq_getElem hi', Option.getD_some] at this
      exact (add_eq_zero_iff_two h2 _ _).1 this.symm
    exact ⟨1, rfl, Or.inr rfl, by simp [hab]⟩
  · have : fqEq x (ofElt 0) = false := by
      rw [Bool.eq_false_iff]; intro h; rw [fqEq, eq_iff, h00] at h; exact hx0 h
    simp only [this, Bool.false_eq_true, if_false]
    have hpos := List.length_pos_iff.2 hx0
    set d := x.length - 1 with hd
    have hdx : (degree x).toNat = d := by unfold degree pabs; omega
    have hda : d < a.length := by omega
    have hdb : d < b.length := by omega
    rw [hdx]
    simp only [pyIdx, List.getElem?_eq_getElem hda, List.getElem?_eq_getElem hdb]
    have hne : a[d] ≠ b[d] := by
      intro h
      have h5 := hcoef d
      rw [coeff_toPoly] at h5
      simp only [List.getD_eq_getElem?_getD, List.getElem?_eq_getElem hda, List.getElem?_eq_getElem hdb, Option.getD_some, h] at h5
      have h6 : x[d]'(by omega) ≠ 0 := by
        apply hxc
        rw [List.getLast?_eq_getElem?, ← hd, List.getElem?_eq_getElem (by omega)]
      rw [(add_eq_zero_iff_two h2 _ _).2 rfl, List.getElem?_eq_getElem (by omega), Option.getD_some] at h5
      exact h6 h5
    have htop : (enc a).drop (d + 1) = (enc b).drop (d + 1) := by
      rw [enc, enc, ← List.map_drop, ← List.map_drop]
      congr 1
      apply List.ext_getElem (by simp [hlen])
      intro i hi hi'
      simp only [List.getElem_drop]
      have hi1 : d + 1 + i < a.length := by simp at hi; omega
      have hi2 : d + 1 + i < b.length := by omega
      have h5 := hcoef (d + 1 + i)
      rw [coeff_toPoly] at h5
      simp only [List.getD_eq_getElem?_getD, List.getElem?_eq_getElem hi1, List.getElem?_eq_getElem hi2, Option.getD_some,
        List.getElem?_eq_none (by omega : x.length ≤ d + 1 + i), Option.getD_none] at h5
      exact (add_eq_zero_iff_two h2 _ _).1 h5.symm
    have hcmp := bitsVal_compare (enc a) (enc b) d (by simpa using hda) (by simpa using hdb)
      (by simp only [enc, List.getElem_map, ne_eq, bit_inj h2]; exact hne) htop
    rw [hcmp]
    simp only [enc, List.getElem_map]
    rcases h2 a[d] with h7 | h7 <;> rcases h2 b[d] with h8 | h8
    · rw [h7, h8] at hne; exact absurd rfl hne
    · refine ⟨1, ?_, Or.inr rfl, by simp [h7, bit]⟩
      rw [if_neg]; simp [bitChar, h7, h8]
    · refine ⟨0, ?_, Or.inl rfl, by simp [h7, bit]⟩
      rw [if_pos]; simp [bitChar, h7, h8]
    · rw [h7, h8] at hne; exact absurd rfl hne

theorem bitChar_dig (h2 : ∀ c : K, c = 0 ∨ c = 1) (a : List K) : (a.map bitChar).map dig = enc a := by
  rw [List.map_map]
  apply List.map_congr_left
  intro c _
  rcases h2 c with rfl | rfl <;> simp [bitChar, bit]

/-- The field elements for a list of bits. -/
def unbit (bs : List Bool) : List K := bs.map fun b => if b then 1 else 0

theorem rba_eq (h2 : ∀ c : K, c = 0 ∨ c = 1) (f a b : List K) :
    ∃ bs : List Bool, bitsVal bs = bitsVal (enc a) + bitsVal (enc b) ∧ regularBinaryAddition f a b = ofList f (unbit bs) := by
  obtain ⟨h, -, -⟩ := addBinaryNums_spec (a.map bitChar).reverse (b.map bitChar).reverse
  rw [List.reverse_reverse, List.reverse_reverse, bitChar_dig h2, bitChar_dig h2] at h
  refine ⟨(addBinaryNums (a.map bitChar).reverse (b.map bitChar).reverse).map dig, h, ?_⟩
  unfold regularBinaryAddition unbit
  rw [List.map_map]
  have : (fun c : Char => if c = '1' then (1 : K) else 0) = (fun b : Bool => if b then (1 : K) else 0) ∘ dig := by
    funext c; simp [dig]
  rw [← this]

theorem enc_unbit (bs : List Bool) : enc (unbit bs : List K) = bs := by
  rw [enc, unbit, List.map_map]
  conv_rhs => rw [← List.map_id bs]
  apply List.map_congr_left
  intro b _
  cases b <;> simp [bit]

theorem enc_ctor (L : List K) : bitsVal (enc (ctor L)) = bitsVal (enc L) := by
  -- the stripped positions are all zero
  have key : ∃ k, L = ctor L ++ List.replicate k 0 := by
    refine ⟨L.length - (ctor L).length, ?_⟩
    have hle : (ctor L).length ≤ L.length := by unfold ctor strip; rw [List.length_take]; omega
    apply List.ext_getElem (by simp; omega)
    intro i hi hi'
    have e : (toPoly L).coeff i = (toPoly (ctor L)).coeff i := by rw [toPoly_ctor]
    rw [coeff_toPoly, coeff_toPoly] at e
    by_cases h : i < (ctor L).length
    · rw [List.getElem_append_left h]
      simpa [List.getElem?_eq_getElem hi, List.getElem?_eq_getElem h] using e
    · rw [List.getElem_append_right (by omega), List.getElem_replicate]
      simpa [List.getElem?_eq_getElem hi, List.getElem?_eq_none (by omega : (ctor L).length ≤ i)] using e
  obtain ⟨k, hk⟩ := key
  conv_rhs => rw [hk]
  have : bit (0 : K) = false := by simp [bit]
  rw [enc, enc, List.map_append, bitsVal_append, List.map_replicate, this, bitsVal_replicate, mul_zero, add_zero]

theorem rba_small (h2 : ∀ c : K, c = 0 ∨ c = 1) (f : List K) [hf : IsModulus f] (a b : List K)
    (hs : bitsVal (enc a) + bitsVal (enc b) < 2 ^ (f.length - 1)) :
    ∃ r, regularBinaryAddition f a b = .ok r ∧ Canon r ∧ bitsVal (enc r) = bitsVal (enc a) + bitsVal (enc b) := by
  obtain ⟨bs, h1, e1⟩ := rba_eq h2 f a b
  have hv : bitsVal (enc (ctor (unbit bs : List K))) = bitsVal (enc a) + bitsVal (enc b) := by
    rw [enc_ctor, enc_unbit, h1]
  have hc := canon_ctor (unbit bs : List K)
  have h2' := IsModulus.two_le f
  have hl : (ctor (unbit bs : List K)).length < f.length := by
    by_cases h0 : ctor (unbit bs : List K) = []
    · rw [h0]; simp; omega
    · have := bitsVal_le_of_getLast (enc_last h2 hc h0)
      rw [hv] at this
      simp only [enc, List.length_map] at this
      have h3 := lt_of_le_of_lt this hs
      rw [Nat.pow_lt_pow_iff_right (by omega)] at h3
      omega
  refine ⟨_, ?_, hc, hv⟩
  rw [e1]
  show mod _ f = _
  rw [(mod_eq_red f hc).1, red_small f hc hl]

/-! ### two_pow -/

theorem toPoly_pow_list (n : Nat) : toPoly (numToBinaryListPow n : List K) = X ^ n := by
  rw [numToBinaryListPow, toPoly_append, toPoly_replicate_zero, List.length_replicate, toPoly_cons, toPoly_nil]; simp

/-- The exponent `two_pow` really computes: `Σ (i + 1)` over the set bits `i`, from index `i`. -/
def twoPowExp : Nat → List Bool → Nat
  | _, [] => 0
  | i, b :: bs => (if b then i + 1 else 0) + twoPowExp (i + 1) bs

theorem twoPowLoop_spec (f : List K) [hf : IsModulus f] : ∀ (a : List K) (i : Nat) (num : Fq f),
    ∃ r : Fq f, twoPowLoop f a i num.1 = .ok r.1 ∧ r.val = num.val * AdjoinRoot.root (toPoly f) ^ twoPowExp i (enc a)
  | [], i, num => ⟨num, rfl, by simp [twoPowExp]⟩
  | c :: cs, i, num => by
    by_cases hc : bit c = true
    · have e1 : ofList f (numToBinaryListPow (i + 1)) = .ok (Fq.mk (ctor (numToBinaryListPow (i + 1))) (canon_ctor _) : Fq f).1 :=
        (mod_eq_red f (canon_ctor _)).1
      have e2 := Fq.fqMul_eq num (Fq.mk (ctor (numToBinaryListPow (i + 1))) (canon_ctor _) : Fq f)
      obtain ⟨r, h1, h2⟩ := twoPowLoop_spec f cs (i + 1) (num * Fq.mk (ctor (numToBinaryListPow (i + 1))) (canon_ctor _))
      refine ⟨r, ?_, ?_⟩
      · simp only [twoPowLoop, hc, if_true, e1, bind, Except.bind, e2]; exact h1
      · rw [h2, Fq.val_mul, Fq.mk_val, toPoly_ctor, toPoly_pow_list, map_pow, AdjoinRoot.mk_X]
        simp only [enc, List.map_cons, hc, twoPowExp, if_true]
        ring
    · obtain ⟨r, h1, h2⟩ := twoPowLoop_spec f cs (i + 1) num
      refine ⟨r, ?_, ?_⟩
      · simp only [twoPowLoop, hc]; exact h1
      · rw [h2]; simp [twoPowExp, hc]

theorem twoPow_spec (f : List K) [hf : IsModulus f] (a : List K) :
    ∃ r : Fq f, twoPow f a = .ok r.1 ∧ r.val = AdjoinRoot.root (toPoly f) ^ twoPowExp 0 (enc a) := by
  have hone : ofList f ([1] : List K) = .ok (1 : Fq f).1 := by
    show mod (ctor [1]) f = _
    have hc := Fq.const_mem (f := f) (1 : K)
    rw [(mod_eq_red f hc.1).1, red_small f hc.1 hc.2]; rfl
  obtain ⟨r, h1, h2⟩ := twoPowLoop_spec f a 0 (1 : Fq f)
  refine ⟨r, by simp only [twoPow, hone, bind, Except.bind]; exact h1, by rw [h2, Fq.val_one, one_mul]⟩

end two

theorem zp_two [Fact (Nat.Prime 2)] (c : Zp 2) : c = 0 ∨ c = 1 := by
  have h1 := c.2.1
  have h2 := c.2.2
  have : c.1 = 0 ∨ c.1 = 1 := by push_cast at h2; omega
  rcases this with h | h
  · left; rw [← Zp.ofInt_val c, h]; rfl
  · right; rw [← Zp.ofInt_val c, h]; rfl

end Verif.FF
