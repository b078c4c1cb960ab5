import Verif.Proofs.Commitment
import Verif.Spec.CommitmentReuse
import Mathlib.Data.List.OfFn
import Mathlib.Data.Set.Card
/-! # One commitment object used several times -/

namespace Verif.Commit
open Bbs Spec

variable {S T : Type}

/-- The digits of a number are its bits. -/
theorem getElem_val (l : List Nat) (h : ∀ d ∈ l, d ≤ 1) : ∀ (j : Nat) (hj : j < l.length),
    l[j] = ((val l).testBit (l.length - 1 - j)).toNat := by
  induction l using List.reverseRecOn with
  | nil => intro j hj; simp at hj
  | append_singleton l d ih =>
    intro j hj
    rw [val_snoc]
    have hd : d ≤ 1 := h d (by simp)
    have hlen : (l ++ [d]).length = l.length + 1 := by simp
    rw [hlen] at hj ⊢
    by_cases hlt : j < l.length
    · rw [List.getElem_append_left hlt, ih (fun x hx => h x (by simp [hx])) j hlt]
      rw [show l.length + 1 - 1 - j = (l.length - 1 - j) + 1 by omega, Nat.testBit_succ, show (2 * val l + d) / 2 = val l by omega]
    · have : j = l.length := by omega
      subst this
      rw [show l.length + 1 - 1 - l.length = 0 by omega, Nat.testBit_zero]
      have : d = 0 ∨ d = 1 := by omega
      rcases this with rfl | rfl <;> simp

/-- What an object with one secret per bit commits to. -/
theorem commitInt_ofFn (owp : S → T) (hp : S → Nat) {n : Nat} (hn : 1 ≤ n) (d : Fin n → S) (x : Nat) (hx : x < 2 ^ n) :
    commitInt owp hp (List.ofFn d) x =
      .ok (List.ofFn fun j : Fin n => (owp (d j), hp (d j) ^^^ (x.testBit (n - 1 - j)).toNat)) := by
  obtain ⟨bits, hb, h1, h2, h3, h4, h5⟩ := zfill_spec n x
  have hlen : bits.length = n := by
    rw [h5]
    have : Nat.log 2 x < n := by
      rcases Nat.eq_zero_or_pos x with rfl | h0
      · simp; omega
      · exact Nat.log_lt_of_lt_pow (by omega) hx
    omega
  have : commitInt owp hp (List.ofFn d) x = .ok (List.zipWith (commitBit owp hp) (List.ofFn d) bits) := by
    simp [commitInt, binDigits_nat, bind, Except.bind, hb]
  rw [this]
  congr 1
  apply List.ext_getElem
  · simp [hlen]
  · intro j hj1 hj2
    have hj : j < n := by simpa using hj2
    rw [List.getElem_zipWith, List.getElem_ofFn, List.getElem_ofFn, getElem_val bits h3 j (by omega), hlen, h4]
    rfl

theorem commitEach_ofFn (owp : S → T) (hp : S → Nat) {n : Nat} (hn : 1 ≤ n) (d : Fin n → S) : ∀ xs : List Nat, (∀ x ∈ xs, x < 2 ^ n) →
    commitEach owp hp (List.ofFn d) xs =
      .ok (xs.map fun x => List.ofFn fun j : Fin n => (owp (d j), hp (d j) ^^^ (x.testBit (n - 1 - j)).toNat))
  | [], _ => rfl
  | x :: xs, h => by
    have ih := commitEach_ofFn owp hp hn d xs fun y hy => h y (by simp [hy])
    unfold commitEach at ih ⊢
    simp only [PolyUtils.pyMap, commitInt_ofFn owp hp hn d x (h x (by simp)), ih, bind, Except.bind, List.map_cons]

theorem toNat_inj {a b : Bool} (h : a.toNat = b.toNat) : a = b := by cases a <;> cases b <;> simp_all

/-- The number with the given bits, most significant first. -/
theorem testBit_val (l : List Nat) (h : ∀ d ∈ l, d ≤ 1) (i : Nat) (hi : i < l.length) :
    ((val l).testBit i).toNat = l[l.length - 1 - i] := by
  rw [getElem_val l h _ (by omega), show l.length - 1 - (l.length - 1 - i) = i by omega]

theorem val_ofFn {n : Nat} (x : Nat) (hx : x < 2 ^ n) : val (List.ofFn fun j : Fin n => (x.testBit (n - 1 - j)).toNat) = x := by
  set l := List.ofFn fun j : Fin n => (x.testBit (n - 1 - j)).toNat with hl
  have hlen : l.length = n := by simp [hl]
  have hb : ∀ d ∈ l, d ≤ 1 := by
    intro d hd
    obtain ⟨j, rfl⟩ := (List.mem_ofFn' _ _).1 hd
    exact Bool.toNat_le _
  apply Nat.eq_of_testBit_eq
  intro i
  by_cases hi : i < n
  · have := testBit_val l hb i (by omega)
    apply toNat_inj
    rw [this]
    simp only [hl, List.getElem_ofFn, List.length_ofFn]
    rw [show n - 1 - (n - 1 - i) = i by omega]
  · rw [Nat.testBit_lt_two_pow, Nat.testBit_lt_two_pow]
    · exact lt_of_lt_of_le hx (Nat.pow_le_pow_right (by omega) (by omega))
    · have := val_lt l hb
      rw [hlen] at this
      exact lt_of_lt_of_le this (Nat.pow_le_pow_right (by omega) (by omega))

theorem toNat_xor (a b : Bool) : (a ^^ b).toNat = a.toNat ^^^ b.toNat := by cases a <;> cases b <;> rfl

theorem xor_cancel (h a b : Nat) : (h ^^^ a) ^^^ (h ^^^ b) = a ^^^ b := by
  rw [Nat.xor_comm h a, Nat.xor_assoc, ← Nat.xor_assoc h h b, Nat.xor_self, Nat.zero_xor]

/-- The attack: add the second components of the two commitments bit by bit. -/
def xorOf (c c' : List (T × Nat)) : Nat := val (List.zipWith (fun a b => a.2 ^^^ b.2) c c')

theorem xorOf_spec (owp : S → T) (hp : S → Nat) {n : Nat} (hn : 1 ≤ n) (d : Fin n → S) (x y : Nat) (hx : x < 2 ^ n) (hy : y < 2 ^ n)
    (c c' : List (T × Nat)) (hc : commitInt owp hp (List.ofFn d) x = .ok c) (hc' : commitInt owp hp (List.ofFn d) y = .ok c') :
    xorOf c c' = x ^^^ y := by
  rw [commitInt_ofFn owp hp hn d _ hx] at hc
  rw [commitInt_ofFn owp hp hn d _ hy] at hc'
  cases hc
  cases hc'
  rw [← val_ofFn (n := n) (x ^^^ y) (Nat.xor_lt_two_pow hx hy)]
  unfold xorOf
  congr 1
  apply List.ext_getElem
  · simp
  · intro j h1 h2
    simp only [List.getElem_zipWith, List.getElem_ofFn, xor_cancel, Nat.testBit_xor, toNat_xor]

/-- Exchange the secrets of the bits that are set in `m`. -/
def swapAt (flip : S → S) {n : Nat} (m : Nat) (d : Fin n → S) : Fin n → S := fun j => if m.testBit (n - 1 - j) then flip (d j) else d j

theorem swapAt_swapAt (flip : S → S) (hi : ∀ s, flip (flip s) = s) {n : Nat} (m : Nat) (d : Fin n → S) :
    swapAt flip m (swapAt flip m d) = d := by
  funext j
  unfold swapAt
  split <;> simp [hi]

theorem flip_bit (hp : S → Nat) (hb : ∀ s, hp s ≤ 1) (flip : S → S) (s : S) (h : hp (flip s) ≠ hp s) : hp (flip s) = hp s ^^^ 1 := by
  have h1 := hb s
  have h2 := hb (flip s)
  have e1 : hp s = 0 ∨ hp s = 1 := by omega
  rcases e1 with e | e <;> rw [e] at h ⊢ <;> simp <;> omega

theorem commitEach_swap (owp : S → T) (hp : S → Nat) (hb : ∀ s, hp s ≤ 1) (flip : S → S)
    (hf : ∀ s, owp (flip s) = owp s ∧ hp (flip s) ≠ hp s) {n : Nat} (hn : 1 ≤ n) (m : Nat) (hm : m < 2 ^ n) (d : Fin n → S) (xs : List Nat)
    (hx : ∀ x ∈ xs, x < 2 ^ n) :
    commitEach owp hp (List.ofFn (swapAt flip m d)) (xs.map (m ^^^ ·)) = commitEach owp hp (List.ofFn d) xs := by
  rw [commitEach_ofFn owp hp hn _ _ hx, commitEach_ofFn owp hp hn _ _ (by
    intro y hy
    obtain ⟨x, hxm, rfl⟩ := List.mem_map.1 hy
    exact Nat.xor_lt_two_pow hm (hx x hxm))]
  rw [List.map_map]
  congr 1
  apply List.map_congr_left
  intro x _
  show List.ofFn _ = List.ofFn _
  congr 1
  funext j
  unfold swapAt
  rw [Nat.testBit_xor]
  by_cases h : m.testBit (n - 1 - j) = true
  · rw [if_pos h, h, (hf _).1, flip_bit hp hb flip _ (hf _).2, toNat_xor, Nat.xor_assoc, ← Nat.xor_assoc 1]
    simp
  · rw [if_neg h, Bool.not_eq_true _ |>.mp h]
    simp

theorem views_le (owp : S → T) (hp : S → Nat) (hb : ∀ s, hp s ≤ 1) (flip : S → S) (hi : ∀ s, flip (flip s) = s) [Finite S]
    (hf : ∀ s, owp (flip s) = owp s ∧ hp (flip s) ≠ hp s) {n : Nat} (hn : 1 ≤ n) (m : Nat) (hm : m < 2 ^ n) (xs : List Nat)
    (hx : ∀ x ∈ xs, x < 2 ^ n) (c : List (List (T × Nat))) :
    {d : Fin n → S | commitEach owp hp (List.ofFn d) xs = .ok c}.ncard ≤
      {d : Fin n → S | commitEach owp hp (List.ofFn d) (xs.map (m ^^^ ·)) = .ok c}.ncard := by
  apply Set.ncard_le_ncard_of_injOn (swapAt flip m)
  · intro d hd
    show commitEach owp hp (List.ofFn (swapAt flip m d)) (xs.map (m ^^^ ·)) = .ok c
    rw [commitEach_swap owp hp hb flip hf hn m hm d xs hx]
    exact hd
  · intro d _ d' _ h
    rw [← swapAt_swapAt flip hi m d, ← swapAt_swapAt flip hi m d', h]

theorem xor_map_map (m : Nat) (xs : List Nat) : (xs.map (m ^^^ ·)).map (m ^^^ ·) = xs := by
  rw [List.map_map]
  conv_rhs => rw [← List.map_id xs]
  apply List.map_congr_left
  intro x _
  show m ^^^ (m ^^^ x) = x
  rw [← Nat.xor_assoc, Nat.xor_self, Nat.zero_xor]

/-- Equal commitments differ by one mask. -/
theorem mask_of_eq (owp : S → T) (hp : S → Nat) (hb : ∀ s, hp s ≤ 1) {n : Nat} (hn : 1 ≤ n) (d d' : Fin n → S) (xs ys : List Nat)
    (hx : ∀ x ∈ xs, x < 2 ^ n) (hy : ∀ y ∈ ys, y < 2 ^ n) (h : commitEach owp hp (List.ofFn d) xs = commitEach owp hp (List.ofFn d') ys) :
    ∃ m < 2 ^ n, ys = xs.map (m ^^^ ·) := by
  rw [commitEach_ofFn owp hp hn _ _ hx, commitEach_ofFn owp hp hn _ _ hy] at h
  have h := Except.ok.inj h
  have hbits : ∀ e ∈ (List.ofFn fun j : Fin n => hp (d j) ^^^ hp (d' j)), e ≤ 1 := by
    intro e he
    obtain ⟨j, rfl⟩ := (List.mem_ofFn' _ _).1 he
    have := Nat.xor_lt_two_pow (n := 1) (x := hp (d j)) (y := hp (d' j)) (by have := hb (d j); omega) (by have := hb (d' j); omega)
    show hp (d j) ^^^ hp (d' j) ≤ 1
    omega
  refine ⟨val (List.ofFn fun j : Fin n => hp (d j) ^^^ hp (d' j)), ?_, ?_⟩
  · have := val_lt _ hbits
    simpa using this
  · set m := val (List.ofFn fun j : Fin n => hp (d j) ^^^ hp (d' j)) with hmdef
    have hm : m < 2 ^ n := by
      have := val_lt _ hbits
      simpa using this
    have hlen : xs.length = ys.length := by simpa using congrArg List.length h
    apply List.ext_getElem
    · simp [hlen]
    · intro i h1 h2
      have h2' : i < xs.length := by simpa using h2
      have e : (xs.map fun x => List.ofFn fun j : Fin n => (owp (d j), hp (d j) ^^^ (x.testBit (n - 1 - j)).toNat))[i]'(by simpa using h2') =
          (ys.map fun x => List.ofFn fun j : Fin n => (owp (d' j), hp (d' j) ^^^ (x.testBit (n - 1 - j)).toNat))[i]'(by simpa using h1) := by
        congr 1
      rw [List.getElem_map, List.getElem_map] at e
      have e := List.ofFn_injective e
      rw [List.getElem_map]
      apply Nat.eq_of_testBit_eq
      intro k
      rw [Nat.testBit_xor]
      by_cases hk : k < n
      · have ek := congrArg Prod.snd (congrFun e ⟨n - 1 - k, by omega⟩)
        simp only [show n - 1 - (n - 1 - k) = k by omega] at ek
        have mk := testBit_val (List.ofFn fun j : Fin n => hp (d j) ^^^ hp (d' j)) hbits k (by simpa using hk)
        simp only [List.getElem_ofFn, List.length_ofFn] at mk
        rw [← hmdef] at mk
        apply toNat_inj
        rw [toNat_xor, mk]
        generalize hp (d ⟨n - 1 - k, _⟩) = a at ek ⊢
        generalize hp (d' ⟨n - 1 - k, _⟩) = b at ek ⊢
        rw [Nat.xor_comm a b, Nat.xor_assoc, ek, ← Nat.xor_assoc, Nat.xor_self, Nat.zero_xor]
      · have hp2 : 2 ^ n ≤ 2 ^ k := Nat.pow_le_pow_right (by omega) (by omega)
        rw [Nat.testBit_lt_two_pow (lt_of_lt_of_le (hy _ (List.getElem_mem h1)) hp2), Nat.testBit_lt_two_pow (lt_of_lt_of_le hm hp2),
          Nat.testBit_lt_two_pow (lt_of_lt_of_le (hx _ (List.getElem_mem h2')) hp2)]
        rfl

end Verif.Commit
