import Verif.Model.ElementText
import Verif.Proofs.MvString
import Verif.Proofs.Rationals
import Verif.Proofs.FiniteField
import Verif.Proofs.SmallPrimes
/-!
# C118: the text of a value determines it
-/

namespace Verif.Props

open Verif.Text
open Verif.MvString

/-- The text of a polynomial over `Z/p` (polynomial.py:63-70, modp.py:84-85). -/
def zpolyText {p : Nat} (f : List (Zp p)) : Str := polyRepr (f.map fun a => modStr a.1)

/-- The text of an element of `FiniteField(p, m)` (finitefield.py:127-129). -/
def fqeltText {p : Nat} (m : Nat) (a : List (Zp p)) : Str := fqRepr p m (zpolyText a)

/-- The text of a polynomial over `FiniteField(p, m)`. -/
def fqpolyText {p : Nat} (m : Nat) (g : List (List (Zp p))) : Str := polyRepr (g.map (fqeltText m))

namespace TextAux

theorem strNat_inj {a b : Nat} (h : strNat a = strNat b) : a = b := by rw [← natOf_strNat a, h, natOf_strNat]

theorem strInt_nonneg {a : Int} (h : 0 ≤ a) : strInt a = strNat a.toNat := by
  rw [strInt, if_neg (by omega)]
  congr 1
  omega

/-- Digits followed by something else. -/
theorem digits_cancel {a b r r' : Str} (ha : ∀ c ∈ a, isDigit c = true) (hb : ∀ c ∈ b, isDigit c = true) (hr : Stop r) (hr' : Stop r')
    (h : a ++ r = b ++ r') : a = b ∧ r = r' := by
  have h1 := congrArg (List.takeWhile isDigit) h
  rw [takeWhile_digits ha, takeWhile_digits hb, hr.take, hr'.take, List.append_nil, List.append_nil] at h1
  exact ⟨h1, by rw [h1] at h; exact List.append_cancel_left h⟩

/-- The terms of a polynomial from index `k` on. -/
def terms (k : Nat) : List Str → Str
  | [] => []
  | [a] => if 0 < k then a ++ " *x**".toList ++ strNat k else a
  | a :: b :: l => (if 0 < k then a ++ " *x**".toList ++ strNat k else a) ++ (" + ".toList ++ terms (k + 1) (b :: l))

theorem terms_eq (k : Nat) (l : List Str) :
    joinPlus ((l.zipIdx k).map fun e => if 0 < e.2 then e.1 ++ " *x**".toList ++ strNat e.2 else e.1) = terms k l := by
  induction l generalizing k with
  | nil => rfl
  | cons a l ih =>
    cases l with
    | nil => rfl
    | cons b l =>
      rw [terms, ← ih (k + 1)]
      rfl

/-- What may follow a coefficient in the text of a polynomial. -/
def After (r : Str) : Prop := r = [] ∨ r.head? = some ' '

/-- The end of a coefficient of this kind can be told from the text. -/
def Separable (S : Str → Prop) : Prop := ∀ a b, S a → S b → ∀ r r', After r → After r' → a ++ r = b ++ r' → a = b

theorem terms_inj {S : Str → Prop} (hS : Separable S) : ∀ (k : Nat) (l l' : List Str), (∀ a ∈ l, S a) → (∀ a ∈ l', S a) →
    l ≠ [] → l' ≠ [] → terms k l = terms k l' → l = l' := by
  have tail : ∀ (k : Nat) (a : Str) (l : List Str), ∃ r, terms k (a :: l) = a ++ r ∧ After r ∧
      (r = (if 0 < k then " *x**".toList ++ strNat k else []) ++ (if l = [] then [] else " + ".toList ++ terms (k + 1) l)) := by
    intro k a l
    refine ⟨_, ?_, ?_, rfl⟩
    · cases l with
      | nil => simp only [terms]; split <;> simp
      | cons b l => rw [terms]; split <;> simp
    · by_cases hk : 0 < k
      · right; simp [hk]
      · by_cases hl : l = []
        · left; simp [hk, hl]
        · right; simp [hk, hl]
  intro k l
  induction l generalizing k with
  | nil => intro l' _ _ h; exact absurd rfl h
  | cons a l ih =>
    intro l' h1 h2 _ h4 h
    cases l' with
    | nil => exact absurd rfl h4
    | cons b l' =>
      obtain ⟨r, e1, e2, e3⟩ := tail k a l
      obtain ⟨r', f1, f2, f3⟩ := tail k b l'
      rw [e1, f1] at h
      have hab := hS a b (h1 a (by simp)) (h2 b (by simp)) r r' e2 f2 h
      subst hab
      have h := List.append_cancel_left h
      rw [e3, f3] at h
      have h := List.append_cancel_left h
      by_cases hl : l = []
      · by_cases hl' : l' = []
        · rw [hl, hl']
        · rw [if_pos hl, if_neg hl'] at h
          simp at h
      · by_cases hl' : l' = []
        · rw [if_neg hl, if_pos hl'] at h
          simp at h
        · rw [if_neg hl, if_neg hl'] at h
          have h := List.append_cancel_left h
          rw [ih (k + 1) l' (fun x hx => h1 x (by simp [hx])) (fun x hx => h2 x (by simp [hx])) hl hl' h]

theorem polyRepr_inj {S : Str → Prop} (hS : Separable S) {l l' : List Str} (h1 : ∀ a ∈ l, S a) (h2 : ∀ a ∈ l', S a)
    (n1 : l ≠ [['0']]) (n2 : l' ≠ [['0']]) (h0 : ∀ a, S a → ∀ r, After r → a ++ r = ['0'] → a = ['0']) (h : polyRepr l = polyRepr l') : l = l' := by
  have zero : ∀ l : List Str, (∀ a ∈ l, S a) → l ≠ [['0']] → l ≠ [] → terms 0 l ≠ ['0'] := by
    intro l hl hn hne h
    match l, hne with
    | [a], _ =>
      rw [terms, if_neg (by simp)] at h
      exact hn (by rw [h])
    | a :: b :: l, _ =>
      rw [terms, if_neg (by simp)] at h
      have := h0 a (hl a (by simp)) _ (.inr (by simp)) h
      rw [this] at h
      simp at h
  unfold polyRepr at h
  rw [terms_eq, terms_eq] at h
  by_cases hl : l = []
  · by_cases hl' : l' = []
    · rw [hl, hl']
    · rw [if_pos hl, if_neg hl'] at h
      exact absurd h.symm (zero l' h2 n2 hl')
  · by_cases hl' : l' = []
    · rw [if_neg hl, if_pos hl'] at h
      exact absurd h (zero l h1 n1 hl)
    · rw [if_neg hl, if_neg hl'] at h
      exact terms_inj hS 0 l l' h1 h2 hl hl' h

def Digits (a : Str) : Prop := a ≠ [] ∧ ∀ c ∈ a, isDigit c = true

theorem After.stop {r : Str} (h : After r) : Stop r := by
  rcases h with rfl | h
  · exact Stop.nil
  · intro c hc
    rw [h] at hc
    cases hc
    decide

theorem digits_separable : Separable Digits := fun _ _ ha hb _ _ hr hr' h => (digits_cancel ha.2 hb.2 hr.stop hr'.stop h).1

theorem digits_zero (a : Str) (ha : Digits a) (r : Str) (_ : After r) (h : a ++ r = ['0']) : a = ['0'] := by
  obtain ⟨c, s, hs⟩ := List.exists_cons_of_ne_nil ha.1
  subst hs
  simp at h
  simp [h]

theorem stop_mod {r : Str} : Stop (" (mod ".toList ++ r) := Stop.cons (by decide)

theorem modStr_digits {p : Nat} (a : Zp p) : Digits (modStr a.1) := by
  rw [modStr, strInt_nonneg a.2.1]
  exact ⟨strNat_ne_nil _, strNat_digit _⟩

theorem modStr_inj {p : Nat} : Function.Injective fun a : Zp p => modStr a.1 := by
  intro a b h
  simp only [modStr, strInt_nonneg a.2.1, strInt_nonneg b.2.1] at h
  have := strNat_inj h
  exact Subtype.ext (by have := a.2.1; have := b.2.1; omega)

end TextAux

open TextAux

/-- **C118** for `Z/p`: the texts of two elements are equal exactly when the elements are, the class called on the text of an element
returns that element, `repr` also determines the modulus, and `abs` is the representative. -/
theorem C118_modp (p : Nat) (a b : Zp p) :
    (modStr a.1 = modStr b.1 ↔ a = b) ∧ modOfStr p (modStr a.1) = .ok a.1 ∧
    (∀ (q : Nat) (c : Zp q), modRepr p a.1 = modRepr q c.1 ↔ p = q ∧ a.1 = c.1) ∧ modAbs a.1 = a.1 := by
  have hp : p ≠ 0 := by have := a.2; omega
  refine ⟨⟨fun h => modStr_inj h, fun h => by rw [h]⟩, ?_, fun q c => ⟨fun h => ?_, fun ⟨h1, h2⟩ => by subst h1; rw [h2]⟩, by
    have := a.2.1; rw [modAbs]; omega⟩
  · rw [modOfStr, modStr, strInt_nonneg a.2.1, pyInt_pos]
    simp only [if_neg hp, Except.ok.injEq]
    rw [Int.toNat_of_nonneg a.2.1]
    exact Modp.mk_of_range p _ a.2.1 a.2.2
  · simp only [modRepr, strInt_nonneg a.2.1, strInt_nonneg c.2.1, List.append_assoc] at h
    obtain ⟨h1, h2⟩ := digits_cancel (strNat_digit _) (strNat_digit _) stop_mod stop_mod h
    have h2 := List.append_cancel_left (as := " (mod ".toList) h2
    have h3 := strNat_inj (List.append_cancel_right h2)
    have h4 := strNat_inj h1
    exact ⟨h3, by have := a.2.1; have := c.2.1; omega⟩

theorem zpoly_not_zero {p : Nat} [Fact p.Prime] (f : List (Zp p)) (hf : Poly.Canon f) : (f.map fun a => modStr a.1) ≠ [['0']] := by
  intro h
  match f, List.map_eq_singleton_iff.1 h with
  | _, ⟨a, rfl, h⟩ =>
    have e : modStr (0 : Zp p).1 = ['0'] := by
      have : (0 : Zp p).1 = 0 := Modp.mk_of_range p 0 le_rfl (by exact_mod_cast (Fact.out : p.Prime).pos)
      rw [this]
      rfl
    exact hf a rfl (modStr_inj (h.trans e.symm))

/-- **C118** for polynomials over `Z/p`. -/
theorem C118_polynomials (p : Nat) [Fact p.Prime] (f g : List (Zp p)) (hf : Poly.Canon f) (hg : Poly.Canon g) :
    zpolyText f = zpolyText g ↔ f = g := by
  refine ⟨fun h => ?_, fun h => by rw [h]⟩
  have := polyRepr_inj digits_separable (by simp [modStr_digits]) (by simp [modStr_digits]) (zpoly_not_zero f hf) (zpoly_not_zero g hg)
    digits_zero h
  exact List.map_injective_iff.2 modStr_inj this

theorem zpolyText_no {p : Nat} (f : List (Zp p)) : '∈' ∉ zpolyText f := by
  have : (f.map fun a => modStr a.1) = (f.map fun a => a.1.toNat).map strNat := by
    rw [List.map_map]
    exact List.map_congr_left fun a _ => strInt_nonneg a.2.1
  rw [zpolyText, this]
  exact polyRepr_no (c := '∈') (by decide) (by decide) (by decide) _

theorem fqeltText_cancel {p : Nat} (m : Nat) (a b : List (Zp p)) (r r' : Str) (h : fqeltText m a ++ r = fqeltText m b ++ r') :
    zpolyText a = zpolyText b := by
  have key : ∀ (a : List (Zp p)) (r : Str), (fqeltText m a ++ r).takeWhile (· ≠ '∈') = zpolyText a ++ [' '] := by
    intro a r
    have e : fqeltText m a ++ r = (zpolyText a ++ [' ']) ++ ('∈' :: (" F_{".toList ++ strNat p ++ '^' :: strNat m ++ ['}'] ++ r)) := by
      simp [fqeltText, fqRepr]
    rw [e, List.takeWhile_append_of_pos]
    · simp
    · intro c hc
      rw [List.mem_append] at hc
      rcases hc with hc | hc
      · simp only [ne_eq, decide_not, Bool.not_eq_eq_eq_not, Bool.not_true, decide_eq_false_iff_not]
        rintro rfl
        exact zpolyText_no a hc
      · simp at hc
        subst hc
        decide
  have := congrArg (List.takeWhile (· ≠ '∈')) h
  rw [key, key] at this
  exact List.append_cancel_right this

/-- **C118** for elements of `FiniteField(p, m)` and polynomials over it. -/
theorem C118_extension_fields (p : Nat) [Fact p.Prime] (m : Nat) (f : List (Zp p)) :
    (∀ a b : FF.Fq f, fqeltText m a.1 = fqeltText m b.1 ↔ a = b) ∧
    ∀ g h : List (FF.Fq f), fqpolyText m (g.map (·.1)) = fqpolyText m (h.map (·.1)) ↔ g = h := by
  have inj : ∀ a b : FF.Fq f, zpolyText a.1 = zpolyText b.1 → a = b := fun a b h =>
    Subtype.ext ((C118_polynomials p a.1 b.1 a.2.1 b.2.1).1 h)
  refine ⟨fun a b => ⟨fun h => ?_, fun h => by rw [h]⟩, fun g h => ⟨fun hgh => ?_, fun h => by rw [h]⟩⟩
  · exact inj a b (fqeltText_cancel m a.1 b.1 [] [] (by simpa using h))
  · have hS : Separable fun s => ∃ a : FF.Fq f, s = fqeltText m a.1 := by
      rintro _ _ ⟨a, rfl⟩ ⟨b, rfl⟩ r r' _ _ h
      rw [inj a b (fqeltText_cancel m a.1 b.1 r r' h)]
    have hlen : ∀ (a : FF.Fq f) (r : Str), fqeltText m a.1 ++ r ≠ ['0'] := by
      intro a r h
      have : '∈' ∈ fqeltText m a.1 ++ r := by simp [fqeltText, fqRepr]
      rw [h] at this
      revert this
      decide
    have hn : ∀ g : List (FF.Fq f), (g.map (·.1)).map (fqeltText m) ≠ [['0']] := by
      intro g h
      rw [List.map_map] at h
      obtain ⟨a, -, h⟩ := List.map_eq_singleton_iff.1 h
      exact hlen a [] (by simpa using h)
    have := polyRepr_inj hS (by simpa using fun a _ => ⟨a, rfl⟩) (by simpa using fun a _ => ⟨a, rfl⟩) (hn g) (hn h) (by
      rintro _ ⟨a, rfl⟩ r _ h
      exact absurd h (hlen a r)) hgh
    rw [List.map_map, List.map_map] at this
    exact List.map_injective_iff.2 (fun a b h => inj a b (fqeltText_cancel m a.1 b.1 [] [] (by simpa using h))) this

/-- **C118** fails for rationals: for every odd prime there are equal elements with different texts (`2` and `1/((p+1)/2)`), and the
class called on the text of any element raises `TypeError`. -/
theorem C118_rationals_refuted (p : Nat) [Fact p.Prime] (h2 : p ≠ 2) :
    (∃ x y : Rat.Q, Rat.Wf p x ∧ Rat.Wf p y ∧ Rat.eq p x y = true ∧ ratStr x ≠ ratStr y ∧ ratRepr p x ≠ ratRepr p y) ∧
    ∀ x : Rat.Q, ratOfStr p (ratStr x) = .error .typeError := by
  have hp : 3 ≤ p := by
    have := (Fact.out : p.Prime).two_le
    omega
  have hodd : p % 2 = 1 := (Fact.out : p.Prime).eq_two_or_odd.resolve_left h2
  refine ⟨⟨⟨2, 1⟩, ⟨1, ((p + 1) / 2 : Nat)⟩, ⟨by norm_num, by simp; omega, by norm_num, by simp; omega, by simp⟩,
    ⟨by norm_num, by simp; omega, by simp; omega, by simp; omega, by simp⟩, ?_, ?_, ?_⟩, fun x => ?_⟩
  · rw [Rat.eq, beq_iff_eq, fmod_nat, fmod_nat]
    have : (2 : Int) * ((p + 1) / 2 : Nat) = 1 * 1 + p * 1 := by omega
    rw [this, Int.add_mul_emod_self_left]
  · intro h
    have := congrArg List.head? h
    simp [ratStr, strInt, strNat, digitChar] at this
  · intro h
    have := congrArg List.head? h
    simp [ratRepr, strInt, strNat, digitChar] at this
  · have : pyInt (ratStr x) = .error .valueError :=
      pyInt_letter (c := '/') (by simp [ratStr]) (by decide) (by decide) (by decide) (by decide) (by decide)
    rw [ratOfStr, this]

/-- **C118** fails for multivariate polynomials: the text depends on the order in which the terms were entered. For all coefficients
and every monomial that is not constant, the two orders of it and a constant give different texts. -/
theorem C118_multivariate_refuted (n : Nat) (t : Mv.Tup) (ht : t.length = n) (hne : t ≠ List.replicate n 0) (a b : Nat) :
    [(t, strNat a), (List.replicate n 0, strNat b)].Perm [(List.replicate n 0, strNat b), (t, strNat a)] ∧
    mvRepr n [(t, strNat a), (List.replicate n 0, strNat b)] ≠ mvRepr n [(List.replicate n 0, strNat b), (t, strNat a)] := by
  refine ⟨List.Perm.swap _ _ _, fun h => ?_⟩
  obtain ⟨e, t, rfl⟩ : ∃ e t', t = e :: t' := by
    cases t with
    | nil => subst ht; exact absurd rfl hne
    | cons e t => exact ⟨e, t, rfl⟩
  simp only [mvRepr, List.cons_ne_nil, if_false, List.map_cons, List.map_nil, if_pos hne, ne_eq, not_true_eq_false, joinPlus,
    List.append_assoc, List.cons_append] at h
  rw [show " + ".toList = [' ', '+', ' '] from rfl] at h
  simp only [List.cons_append, List.nil_append] at h
  have h := (digits_cancel (strNat_digit a) (strNat_digit b) (Stop.cons (by decide)) (Stop.cons (by decide)) h).2
  simp [tupStr] at h

/-! ### Concrete cases -/

example : modStr 5 = "5".toList ∧ modRepr 7 5 = "5 (mod 7)".toList ∧ modOfStr 7 "5".toList = .ok 5 := ⟨rfl, rfl, rfl⟩

/-- This meets the hypotheses of `C118_polynomials`. -/
example : String.ofList (zpolyText ([Zp.ofInt 3, Zp.ofInt 0, Zp.ofInt 12] : List (Zp 17))) = "3 + 0 *x**1 + 12 *x**2" := by decide +kernel

example : String.ofList (fqpolyText 2 ([[Zp.ofInt 1, Zp.ofInt 1], []] : List (List (Zp 2)))) =
    "1 + 1 *x**1 ∈ F_{2^2} + 0 ∈ F_{2^2} *x**1" := by decide +kernel

/-- This meets the hypotheses of `C118_rationals_refuted`. -/
example : ratStr ⟨2, 1⟩ = "2/1".toList ∧ ratStr ⟨1, 4⟩ = "1/4".toList ∧ Rat.eq 7 ⟨2, 1⟩ ⟨1, 4⟩ = true := ⟨rfl, rfl, rfl⟩

example : String.ofList (mvRepr 1 [([2], strNat 3), ([0], strNat 5)]) = "3 *X_1**2 + 5" ∧
    String.ofList (mvRepr 1 [([0], strNat 5), ([2], strNat 3)]) = "5 + 3 *X_1**2" := by decide +kernel

end Verif.Props
