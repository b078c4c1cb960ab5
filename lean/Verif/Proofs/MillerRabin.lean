import Verif.Proofs.Primality
import Mathlib.GroupTheory.Index
import Mathlib.Data.ZMod.Units
import Mathlib.Data.ZMod.Basic
import Mathlib.Data.Nat.Totient
import Mathlib.Data.Nat.Factorization.Basic
import Mathlib.Algebra.IsPrimePow
import Mathlib.Data.Fintype.Pi
import Mathlib.Data.Int.Interval
import Mathlib.GroupTheory.Perm.Cycle.Type
import Mathlib.RingTheory.IntegralDomain
import Mathlib.Tactic.IntervalCases
/-! # At most a quarter of the bases are not witnesses -/

namespace Verif.Primality

/-- `x` passes the test of `isWitness`, as a unit modulo `n`. -/
def Passes (n e r : Nat) (x : (ZMod n)ˣ) : Prop := x ^ r = 1 ∨ ∃ i < e, x ^ (2 ^ i * r) = -1

theorem passes_fermat {n e r : Nat} (h : n - 1 = 2 ^ e * r) {x : (ZMod n)ˣ} (hx : Passes n e r x) : x ^ (n - 1) = 1 := by
  rw [h]
  rcases hx with hx | ⟨i, hi, hx⟩
  · rw [mul_comm, pow_mul, hx, one_pow]
  · obtain ⟨c, rfl⟩ := Nat.exists_eq_add_of_lt hi
    rw [show 2 ^ (i + c + 1) * r = 2 ^ i * r * 2 * 2 ^ c by ring, pow_mul, pow_mul, hx]
    simp

/-- A unit that agrees with `x` modulo one of two coprime factors and with 1 modulo the other. -/
theorem exists_split (u v : Nat) (hco : Nat.Coprime u v) (x : (ZMod (u * v))ˣ) :
    ∃ y : (ZMod (u * v))ˣ, ZMod.unitsMap (Dvd.intro v rfl) y = ZMod.unitsMap (Dvd.intro v rfl : u ∣ u * v) x ∧
      ZMod.unitsMap (Dvd.intro_left u rfl : v ∣ u * v) y = 1 := by
  let Φ : (ZMod (u * v))ˣ ≃* (ZMod u)ˣ × (ZMod v)ˣ :=
    (Units.mapEquiv (ZMod.chineseRemainder hco).toMulEquiv).trans MulEquiv.prodUnits
  have h1 : ∀ z, (Φ z).1 = ZMod.unitsMap (Dvd.intro v rfl : u ∣ u * v) z := fun z => Units.ext (Prod.fst_zmod_cast _)
  have h2 : ∀ z, (Φ z).2 = ZMod.unitsMap (Dvd.intro_left u rfl : v ∣ u * v) z := fun z => Units.ext (Prod.snd_zmod_cast _)
  refine ⟨Φ.symm ((Φ x).1, 1), ?_, ?_⟩
  · rw [← h1, ← h1, Φ.apply_symm_apply]
  · rw [← h2, Φ.apply_symm_apply]

theorem exists_split' (b u v : Nat) (hco : Nat.Coprime u v) (hb : b = u * v) (x : (ZMod b)ˣ) :
    ∃ y : (ZMod b)ˣ, ZMod.unitsMap (Dvd.intro v hb.symm) y = ZMod.unitsMap (Dvd.intro v hb.symm : u ∣ b) x ∧
      ZMod.unitsMap (Dvd.intro_left u hb.symm : v ∣ b) y = 1 := by
  subst hb
  exact exists_split u v hco x

theorem one_ne_neg_one (m : Nat) (hm : 2 < m) : (1 : (ZMod m)ˣ) ≠ -1 := by
  intro h
  have h := congrArg Units.val h
  have : ((2 : Nat) : ZMod m) = 0 := by
    push_cast
    have : (1 : ZMod m) = -1 := by simpa using h
    linear_combination this
  rw [ZMod.natCast_eq_zero_iff] at this
  have := Nat.le_of_dvd (by norm_num) this
  omega

theorem unitsMap_neg {u n : Nat} (h : u ∣ n) : ZMod.unitsMap h (-1) = -1 := by
  apply Units.ext
  rw [ZMod.unitsMap_def, Units.coe_map, Units.val_neg, Units.val_neg, Units.val_one, Units.val_one, MonoidHom.coe_coe, map_neg, map_one]

theorem mem_signs {m : Nat} (x : (ZMod m)ˣ) : x ∈ Subgroup.zpowers (-1 : (ZMod m)ˣ) ↔ x = 1 ∨ x = -1 := by
  rw [Subgroup.mem_zpowers_iff]
  constructor
  · rintro ⟨z, rfl⟩
    rcases Int.even_or_odd z with hz | hz
    · left; exact Even.neg_one_zpow hz
    · right; exact Odd.neg_one_zpow hz
  · rintro (h | h)
    · exact ⟨0, by rw [h, zpow_zero]⟩
    · exact ⟨1, by rw [h]; simp⟩

/-- The exponent of the units modulo a prime power `q^m`: if all of them satisfy `x^k = 1` and `q` does not divide `k` then `m = 1` and
`q - 1` divides `k`. -/
theorem primePow_exponent (q m k : Nat) (hq : q.Prime) (hm : 1 ≤ m) (hk : ¬ q ∣ k) (h : ∀ x : (ZMod (q ^ m))ˣ, x ^ k = 1) :
    m = 1 ∧ q - 1 ∣ k := by
  have : Fact q.Prime := ⟨hq⟩
  have : NeZero (q ^ m) := ⟨pow_ne_zero _ hq.ne_zero⟩
  have hcard : Nat.card (ZMod (q ^ m))ˣ = q ^ (m - 1) * (q - 1) := by
    rw [Nat.card_eq_fintype_card, ZMod.card_units_eq_totient, Nat.totient_prime_pow hq hm]
  have hm1 : m = 1 := by
    by_contra hm1
    obtain ⟨x, hx⟩ := exists_prime_orderOf_dvd_card' (G := (ZMod (q ^ m))ˣ) q
      (by rw [hcard]; exact Dvd.dvd.mul_right (dvd_pow_self q (by omega)) _)
    exact hk (hx ▸ orderOf_dvd_of_pow_eq_one (h x))
  refine ⟨hm1, ?_⟩
  subst hm1
  have hq1 : q ^ 1 = q := pow_one q
  rw [hq1] at h hcard
  obtain ⟨x, hx⟩ := IsCyclic.exists_ofOrder_eq_natCard (α := (ZMod q)ˣ)
  have := orderOf_dvd_of_pow_eq_one (h x)
  rw [hx, hcard, Nat.sub_self, pow_zero, one_mul] at this
  exact this

/-- An odd number that is not a prime power has two coprime factors, one of them a prime power. -/
theorem odd_split (n : Nat) (hn : 1 < n) (ho : n % 2 = 1) (hpp : ¬ IsPrimePow n) :
    ∃ q m b : Nat, q.Prime ∧ m ≠ 0 ∧ Nat.Coprime (q ^ m) b ∧ 2 < q ^ m ∧ 2 < b ∧ n = q ^ m * b := by
  have hodd : ∀ d, d ∣ n → d % 2 = 1 := by
    rintro d ⟨c, hc⟩
    rcases Nat.mod_two_eq_zero_or_one d with h0 | h1
    · rw [hc, Nat.mul_mod, h0] at ho; simp at ho
    · exact h1
  have hq := Nat.minFac_prime (show n ≠ 1 by omega)
  obtain ⟨m, b, hb, hbn⟩ := Nat.exists_eq_pow_mul_and_not_dvd (show n ≠ 0 by omega) n.minFac hq.ne_one
  have hm0 : m ≠ 0 := by
    rintro rfl
    rw [pow_zero, one_mul] at hbn
    exact hb (hbn ▸ Nat.minFac_dvd n)
  have hb1 : b ≠ 1 := by
    rintro rfl
    rw [mul_one] at hbn
    exact hpp ((isPrimePow_nat_iff n).mpr ⟨n.minFac, m, hq, by omega, hbn.symm⟩)
  have hb0 : b ≠ 0 := by rintro rfl; rw [mul_zero] at hbn; omega
  have hb2 := hodd b ⟨_, by rw [mul_comm]; exact hbn⟩
  have ha2 := hodd (n.minFac ^ m) ⟨_, hbn⟩
  have ha1 := Nat.one_lt_pow hm0 hq.one_lt
  exact ⟨n.minFac, m, b, hq, hm0, Nat.Coprime.pow_left _ ((Nat.Prime.coprime_iff_not_dvd hq).mpr hb), by omega, by omega, hbn⟩

/-- A product of two coprime prime powers is not a Carmichael number. -/
theorem two_primes_fermat (q m b l s : Nat) (hq : q.Prime) (hm : m ≠ 0) (hl : l.Prime) (hs : s ≠ 0) (hb : l ^ s = b)
    (hco : Nat.Coprime (q ^ m) b) (h1 : ∀ x : (ZMod (q ^ m))ˣ, x ^ (q ^ m * b - 1) = 1)
    (h2 : ∀ x : (ZMod b)ˣ, x ^ (q ^ m * b - 1) = 1) : False := by
  subst hb
  have hpos : 1 ≤ q ^ m * l ^ s := Nat.mul_pos (Nat.pow_pos hq.pos) (Nat.pow_pos hl.pos)
  have hcop : ∀ p, p.Prime → p ∣ q ^ m * l ^ s → ¬ p ∣ q ^ m * l ^ s - 1 := by
    intro p hp h1 h2
    have := Nat.dvd_sub h1 h2
    rw [Nat.sub_sub_self hpos] at this
    exact hp.one_lt.ne' (Nat.dvd_one.mp this)
  obtain ⟨rfl, d1⟩ := primePow_exponent q m _ hq (by omega) (hcop q hq (Dvd.dvd.mul_right (dvd_pow_self q hm) _)) h1
  obtain ⟨rfl, d2⟩ := primePow_exponent l s _ hl (by omega) (hcop l hl (Dvd.dvd.mul_left (dvd_pow_self l hs) _)) h2
  rw [pow_one, pow_one] at d1 d2 hco
  have key : ∀ a b : Nat, a.Prime → b.Prime → a - 1 ∣ a * b - 1 → a ≤ b := by
    intro a b ha hb hd
    have ha2 := ha.two_le
    have hb2 := hb.two_le
    have e : a * b - 1 = (a - 1) * b + (b - 1) := by
      obtain ⟨a, rfl⟩ := Nat.exists_eq_add_of_le' (show 1 ≤ a by omega)
      rw [Nat.add_sub_cancel, Nat.add_mul, one_mul]
      omega
    rw [e] at hd
    have := Nat.le_of_dvd (by omega) ((Nat.dvd_add_right (Dvd.intro b rfl)).mp hd)
    omega
  have hle := le_antisymm (key q l hq hl d1) (key l q hl hq (by rw [mul_comm]; exact d2))
  rw [hle, Nat.coprime_self] at hco
  exact hl.one_lt.ne' hco

/-- All units that pass lie in a subgroup of index at least 4, unless `n = 9`. -/
theorem exists_small_subgroup (n e r : Nat) (hn : 2 < n) (h9 : n ≠ 9) (ho : n % 2 = 1) (hc : ¬ n.Prime) (he : 0 < e) (hr : r % 2 = 1)
    (h : n - 1 = 2 ^ e * r) : ∃ H : Subgroup (ZMod n)ˣ, 4 ≤ H.index ∧ ∀ x, Passes n e r x → x ∈ H := by
  classical
  have : NeZero n := ⟨by omega⟩
  have hodd : ∀ d, d ∣ n → d % 2 = 1 := by
    rintro d ⟨c, hc⟩
    rcases Nat.mod_two_eq_zero_or_one d with h0 | h1
    · rw [hc, Nat.mul_mod, h0] at ho; simp at ho
    · exact h1
  have hcop : ∀ q, q.Prime → q ∣ n → ¬ q ∣ n - 1 := by
    intro q hq h1 h2
    have := Nat.dvd_sub h1 h2
    rw [Nat.sub_sub_self (by omega)] at this
    exact hq.one_lt.ne' (Nat.dvd_one.mp this)
  by_cases hpp : IsPrimePow n
  · obtain ⟨q, k, hq, hk, rfl⟩ := (isPrimePow_nat_iff n).mp hpp
    have hk2 : 2 ≤ k := by
      by_contra hk2
      have : k = 1 := by omega
      subst this
      exact hc (by simpa using hq)
    have hqf : Fact q.Prime := ⟨hq⟩
    refine ⟨(powMonoidHom (q ^ k - 1) : (ZMod (q ^ k))ˣ →* _).ker, ?_, fun x hx => passes_fermat h hx⟩
    set H : Subgroup (ZMod (q ^ k))ˣ := (powMonoidHom (q ^ k - 1)).ker with hH
    have hcard : Nat.card (ZMod (q ^ k))ˣ = q ^ (k - 1) * (q - 1) := by
      rw [Nat.card_eq_fintype_card, ZMod.card_units_eq_totient, Nat.totient_prime_pow hq (by omega)]
    have hnd : ¬ q ∣ Nat.card H := by
      intro hd
      obtain ⟨x, hx⟩ := exists_prime_orderOf_dvd_card' (G := H) q hd
      have h1 : x.1 ^ (q ^ k - 1) = 1 := x.2
      have h2 : x ^ (q ^ k - 1) = 1 := Subtype.ext (by rw [Subgroup.coe_pow]; exact h1)
      have h3 := orderOf_dvd_of_pow_eq_one h2
      rw [hx] at h3
      exact hcop q hq (dvd_pow_self q (by omega)) h3
    have h1 := H.card_mul_index
    rw [hcard] at h1
    have hcop2 : Nat.Coprime (q ^ (k - 1)) (Nat.card H) := Nat.Coprime.pow_left _ ((Nat.Prime.coprime_iff_not_dvd hq).mpr hnd)
    have h2 : q ^ (k - 1) ∣ H.index := hcop2.dvd_of_dvd_mul_left ⟨q - 1, h1⟩
    have h3 := Nat.le_of_dvd (Nat.pos_of_ne_zero Subgroup.index_ne_zero_of_finite) h2
    have hq2 := hodd q (dvd_pow_self q (by omega))
    have hq3 := hq.two_le
    refine le_trans ?_ h3
    by_cases h5 : 5 ≤ q
    · calc 4 ≤ q ^ 1 := by rw [pow_one]; omega
        _ ≤ q ^ (k - 1) := Nat.pow_le_pow_right (by omega) (by omega)
    · have : q = 3 := by omega
      subst this
      have : k ≠ 2 := by
        rintro rfl
        exact h9 rfl
      calc 4 ≤ 3 ^ 2 := by norm_num
        _ ≤ 3 ^ (k - 1) := Nat.pow_le_pow_right (by norm_num) (by omega)
  · -- two coprime factors, the first of them a prime power
    obtain ⟨q, m, b, hq, hm0, hco, h1, h2, hbn⟩ := odd_split n (by omega) ho hpp
    let P : Nat → Prop := fun i => i < e ∧ ∃ x : (ZMod n)ˣ, x ^ (2 ^ i * r) = -1
    have hP0 : P 0 := ⟨he, -1, by rw [pow_zero, one_mul]; exact Odd.neg_one_pow (Nat.odd_iff.mpr hr)⟩
    let j := Nat.findGreatest P e
    have hPj : P j := Nat.findGreatest_spec (P := P) (Nat.zero_le e) hP0
    have hmax : ∀ i, P i → i ≤ j := fun i hi => Nat.le_findGreatest (by have := hi.1; omega) hi
    obtain ⟨hje, x0, hx0⟩ := hPj
    have hdu : q ^ m ∣ n := ⟨b, hbn⟩
    have hdb : b ∣ n := ⟨q ^ m, by rw [hbn, mul_comm]⟩
    set M := 2 ^ j * r with hM
    -- the subgroups of the `x` with `x^M = ±1`, and with `x^M = ±1` modulo both factors
    let H : Subgroup (ZMod n)ˣ := (Subgroup.zpowers (-1 : (ZMod n)ˣ)).comap (powMonoidHom M)
    let K : Subgroup (ZMod n)ˣ := ((Subgroup.zpowers (-1 : (ZMod (q ^ m))ˣ)).comap (ZMod.unitsMap hdu) ⊓
      (Subgroup.zpowers (-1 : (ZMod b)ˣ)).comap (ZMod.unitsMap hdb)).comap (powMonoidHom M)
    have hH : ∀ x, x ∈ H ↔ x ^ M = 1 ∨ x ^ M = -1 := fun x => mem_signs (x ^ M)
    have hK : ∀ x, x ∈ K ↔ (ZMod.unitsMap hdu x ^ M = 1 ∨ ZMod.unitsMap hdu x ^ M = -1) ∧
        (ZMod.unitsMap hdb x ^ M = 1 ∨ ZMod.unitsMap hdb x ^ M = -1) := by
      intro x
      rw [← mem_signs, ← mem_signs, ← map_pow, ← map_pow]
      rfl
    have hHK : H ≤ K := by
      intro x hx
      rw [hK, ← map_pow, ← map_pow]
      rcases (hH x).mp hx with h | h
      · rw [h, map_one, map_one]; exact ⟨Or.inl rfl, Or.inl rfl⟩
      · rw [h, unitsMap_neg, unitsMap_neg]; exact ⟨Or.inr rfl, Or.inr rfl⟩
    have hKH : ¬ K ≤ H := by
      subst hbn
      obtain ⟨y, hy1, hy2⟩ := exists_split (q ^ m) b hco x0
      have e1 : ZMod.unitsMap hdu y ^ M = -1 := by rw [hy1, ← map_pow, hx0, unitsMap_neg]
      have e2 : ZMod.unitsMap hdb y ^ M = 1 := by rw [hy2, one_pow]
      intro hle
      rcases (hH y).mp (hle ((hK y).mpr ⟨Or.inr e1, Or.inl e2⟩)) with h | h
      · rw [← map_pow, h, map_one] at e1
        exact one_ne_neg_one _ h1 e1
      · rw [← map_pow, h, unitsMap_neg] at e2
        exact one_ne_neg_one _ h2 e2.symm
    have hKtop : K ≠ ⊤ := by
      intro htop
      have hall : ∀ x, x ∈ K := fun x => by rw [htop]; trivial
      by_cases hbp : IsPrimePow b
      · obtain ⟨l, s, hl, hs, hls⟩ := (isPrimePow_nat_iff b).mp hbp
        have hdiv : M * 2 ∣ n - 1 := by
          obtain ⟨c, hec⟩ := Nat.exists_eq_add_of_lt hje
          rw [h, hM, hec]
          exact ⟨2 ^ c, by ring⟩
        have hsq : ∀ {t : Nat} (x : (ZMod t)ˣ), x ^ M = 1 ∨ x ^ M = -1 → x ^ (n - 1) = 1 := by
          intro t x hx
          obtain ⟨c, hc⟩ := hdiv
          rw [hc, pow_mul, pow_mul]
          rcases hx with hx | hx <;> rw [hx] <;> simp
        rw [hbn] at hsq
        refine two_primes_fermat q m b l s hq hm0 hl (by omega) hls hco (fun x => ?_) (fun x => ?_)
        · obtain ⟨g, rfl⟩ := ZMod.unitsMap_surjective hdu x
          exact hsq _ ((hK g).mp (hall g)).1
        · obtain ⟨g, rfl⟩ := ZMod.unitsMap_surjective hdb x
          exact hsq _ ((hK g).mp (hall g)).2
      · obtain ⟨l, s, d, -, -, hcd, hc1, hc2, hbd⟩ := odd_split b (by omega) (hodd b hdb) hbp
        obtain ⟨c, hcl⟩ : ∃ c, c = l ^ s := ⟨_, rfl⟩
        rw [← hcl] at hcd hc1 hbd
        obtain ⟨y, hy1, hy2⟩ := exists_split' b c d hcd hbd (ZMod.unitsMap hdb x0)
        obtain ⟨g, hg⟩ := ZMod.unitsMap_surjective hdb y
        have e1 : ZMod.unitsMap (Dvd.intro d hbd.symm : c ∣ b) (y ^ M) = -1 := by
          rw [map_pow, hy1, ← map_pow, ← map_pow, hx0, unitsMap_neg, unitsMap_neg]
        have e2 : ZMod.unitsMap (Dvd.intro_left c hbd.symm : d ∣ b) (y ^ M) = 1 := by rw [map_pow, hy2, one_pow]
        have := ((hK g).mp (hall g)).2
        rw [hg] at this
        rcases this with h | h
        · rw [h, map_one] at e1
          exact one_ne_neg_one _ hc1 e1
        · rw [h, unitsMap_neg] at e2
          exact one_ne_neg_one _ hc2 e2.symm
    refine ⟨H, ?_, fun x hx => ?_⟩
    · rw [← Subgroup.relIndex_mul_index hHK]
      have i1 : H.relIndex K ≠ 1 := fun h => hKH (Subgroup.relIndex_eq_one.mp h)
      have i2 : H.relIndex K ≠ 0 := Subgroup.index_ne_zero_of_finite
      have i3 : K.index ≠ 1 := fun h => hKtop (Subgroup.index_eq_one.mp h)
      have i4 : K.index ≠ 0 := Subgroup.index_ne_zero_of_finite
      calc 4 = 2 * 2 := rfl
        _ ≤ _ := Nat.mul_le_mul (by omega) (by omega)
    · rw [hH]
      rcases hx with hx | ⟨i, hi, hx⟩
      · left; rw [hM, mul_comm (2 ^ j) r, pow_mul, hx, one_pow]
      · rcases Nat.eq_or_lt_of_le (hmax i ⟨hi, x, hx⟩) with h | h
        · right; rw [hM, ← h]; exact hx
        · left
          obtain ⟨c, hc⟩ := Nat.exists_eq_add_of_lt h
          rw [hM, hc, show 2 ^ (i + c + 1) * r = 2 ^ i * r * 2 * 2 ^ c by ring, pow_mul, pow_mul, hx]
          simp

/-- The bases in `[2, p-2]` that are not witnesses. -/
noncomputable def liars (p : Int) (e r : Nat) : Finset Int := (Finset.Icc 2 (p - 2)).filter fun a => isWitness a p e r = false

theorem liars_card (n e r : Nat) (hn : 4 < n) (h9 : n ≠ 9) (ho : n % 2 = 1) (hc : ¬ n.Prime) (he : 0 < e) (hr : r % 2 = 1)
    (h : n - 1 = 2 ^ e * r) : 4 * ((liars n e r).card + 2) ≤ n - 1 := by
  classical
  obtain ⟨H, hH, hmem⟩ := exists_small_subgroup n e r (by omega) h9 ho hc he hr h
  have : NeZero n := ⟨by omega⟩
  have hn2 : (2 : Int) ≤ n := by omega
  have hcard : 4 * Nat.card H ≤ n - 1 := by
    have h1 := H.card_mul_index
    have h5 : Nat.card (ZMod n)ˣ = n.totient := by rw [Nat.card_eq_fintype_card, ZMod.card_units_eq_totient]
    have h6 := Nat.totient_lt n (by omega)
    calc 4 * Nat.card H = Nat.card H * 4 := mul_comm _ _
      _ ≤ Nat.card H * H.index := Nat.mul_le_mul_left _ hH
      _ = n.totient := by rw [h1, h5]
      _ ≤ n - 1 := by omega
  -- every liar, and `1`, `n - 1`, is the residue of an element of `H`
  have key : ∀ a ∈ insert 1 (insert ((n : Int) - 1) (liars n e r)), ∃ x : (ZMod n)ˣ, x ∈ H ∧ (x : ZMod n) = (a : ZMod n) := by
    intro a ha
    rw [Finset.mem_insert, Finset.mem_insert] at ha
    rcases ha with rfl | rfl | ha
    · exact ⟨1, H.one_mem, by simp⟩
    · refine ⟨-1, hmem _ (Or.inr ⟨0, he, ?_⟩), by simp⟩
      rw [pow_zero, one_mul]; exact Odd.neg_one_pow (Nat.odd_iff.mpr hr)
    · unfold liars at ha
      rw [Finset.mem_filter, Finset.mem_Icc] at ha
      obtain ⟨⟨ha1, ha2⟩, hw⟩ := ha
      have hcop : Nat.Coprime a.toNat n := by
        by_contra hco
        have hg : 2 ≤ Nat.gcd a.toNat n := by
          have : Nat.gcd a.toNat n ≠ 0 := Nat.gcd_ne_zero_right (by omega)
          have : Nat.gcd a.toNat n ≠ 1 := hco
          omega
        have := not_coprime_witness a n hn2 e r (by omega) (Nat.gcd a.toNat n : Int) (by exact_mod_cast hg)
          (by
            have := Int.natCast_dvd_natCast.mpr (Nat.gcd_dvd_left a.toNat n)
            rwa [Int.toNat_of_nonneg (by omega)] at this)
          (Int.natCast_dvd_natCast.mpr (Nat.gcd_dvd_right a.toNat n))
        rw [this] at hw; simp at hw
      refine ⟨ZMod.unitOfCoprime a.toNat hcop, hmem _ ?_, ?_⟩
      · rw [isWitness_false_iff] at hw
        simp only [powMod_eq_one _ _ _ hn2, powMod_eq_neg_one _ _ _ hn2, ← ZMod.intCast_zmod_eq_zero_iff_dvd] at hw
        have hv : ((a.toNat : Nat) : ZMod n) = (a : ZMod n) := by
          rw [← Int.cast_natCast, Int.toNat_of_nonneg (by omega)]
        rcases hw with hw | ⟨i, hi, hw⟩
        · left
          apply Units.ext
          rw [Units.val_pow_eq_pow_val, ZMod.coe_unitOfCoprime, hv, Units.val_one]
          push_cast at hw
          exact sub_eq_zero.mp hw
        · right
          refine ⟨i, hi, Units.ext ?_⟩
          rw [Units.val_pow_eq_pow_val, ZMod.coe_unitOfCoprime, hv, Units.val_neg, Units.val_one]
          push_cast at hw
          exact eq_neg_of_add_eq_zero_left hw
      · rw [ZMod.coe_unitOfCoprime, ← Int.cast_natCast, Int.toNat_of_nonneg (by omega)]
  have hrange : ∀ a ∈ insert 1 (insert ((n : Int) - 1) (liars n e r)), 1 ≤ a ∧ a < n := by
    intro a ha
    rw [Finset.mem_insert, Finset.mem_insert] at ha
    rcases ha with rfl | rfl | ha
    · omega
    · omega
    · unfold liars at ha
      rw [Finset.mem_filter, Finset.mem_Icc] at ha
      omega
  choose! f hf hfa using key
  have hinj : Set.InjOn f (insert 1 (insert ((n : Int) - 1) (liars n e r)) : Finset Int) := by
    intro a ha b hb hab
    have ha' := hfa a ha
    rw [hab, hfa b hb] at ha'
    rw [ZMod.intCast_eq_intCast_iff'] at ha'
    have h1 := hrange a ha
    have h2 := hrange b hb
    rw [Int.emod_eq_of_lt (by omega) (by omega), Int.emod_eq_of_lt (by omega) (by omega)] at ha'
    exact ha'.symm
  have hle : (insert 1 (insert ((n : Int) - 1) (liars n e r))).card ≤ Nat.card H := by
    have hHc : Nat.card H = (H : Set (ZMod n)ˣ).toFinset.card := by
      rw [Set.toFinset_card]; exact Nat.card_eq_fintype_card
    rw [← Finset.card_image_of_injOn hinj, hHc]
    apply Finset.card_le_card
    intro x hx
    rw [Finset.mem_image] at hx
    obtain ⟨a, ha, rfl⟩ := hx
    rw [Set.mem_toFinset]
    exact hf a ha
  rw [Finset.card_insert_of_notMem, Finset.card_insert_of_notMem] at hle
  · omega
  · unfold liars
    rw [Finset.mem_filter, Finset.mem_Icc]; omega
  · unfold liars
    rw [Finset.mem_insert, Finset.mem_filter, Finset.mem_Icc]; omega

/-- No base in `[2, 7]` passes for 9. -/
theorem liars_nine (e r : Nat) (hr : r % 2 = 1) (h : 8 = 2 ^ e * r) : (liars 9 e r).card = 0 := by
  have he : e < 4 := by
    by_contra he
    have h1 : 2 ^ 4 ≤ 2 ^ e := Nat.pow_le_pow_right (by norm_num) (by omega)
    have h2 : 2 ^ e * 1 ≤ 2 ^ e * r := Nat.mul_le_mul_left _ (by omega)
    omega
  have : e = 3 ∧ r = 1 := by
    interval_cases e <;> omega
  obtain ⟨rfl, rfl⟩ := this
  rw [Finset.card_eq_zero]
  unfold liars
  rw [Finset.filter_eq_empty_iff]
  intro a ha
  rw [Finset.mem_Icc] at ha
  obtain ⟨h1, h2⟩ := ha
  interval_cases a <;> decide

end Verif.Primality
