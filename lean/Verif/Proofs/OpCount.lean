import Verif.Model.OpCount
import Verif.Proofs.FFT
import Mathlib.Tactic.Ring
import Mathlib.Tactic.Linarith
/-!
# The counted functions compute what the plain ones compute, at the stated price
-/

namespace Verif.OpCount
open Poly PolyUtils FFT
open Polynomial hiding degree

/-- The outcome of `x`, at the price `c` if it returns. -/
def tag {α : Type _} (c : Ops) (x : Py α) : Cnt α :=
  match x with
  | .ok a => .ok (a, c)
  | .error e => .error e

theorem Ops.ext' {a b : Ops} (h1 : a.mul = b.mul) (h2 : a.inv = b.inv) : a = b := by
  cases a; cases b; simp_all

@[simp] theorem add_mul' (a b : Ops) : (a + b).mul = a.mul + b.mul := rfl
@[simp] theorem add_inv' (a b : Ops) : (a + b).inv = a.inv + b.inv := rfl
@[simp] theorem zero_mul' : (0 : Ops).mul = 0 := rfl
@[simp] theorem zero_inv' : (0 : Ops).inv = 0 := rfl
@[simp] theorem mk_add (a b c d : Nat) : (⟨a, b⟩ + ⟨c, d⟩ : Ops) = ⟨a + c, b + d⟩ := rfl
theorem zero_eq : (0 : Ops) = ⟨0, 0⟩ := rfl

theorem zero_add_ops (c : Ops) : (⟨0, 0⟩ + c : Ops) = c := by apply Ops.ext' <;> simp

theorem pure_tag {α : Type} (a : α) : (pure a : Cnt α) = tag ⟨0, 0⟩ (.ok a) := rfl
theorem free_tag {α : Type} (x : Py α) : free x = tag ⟨0, 0⟩ x := rfl

theorem tag_ok {α : Type} (c : Ops) (a : α) : tag c (.ok a) = .ok (a, c) := rfl

theorem bind_tag {α β : Type} {c d e : Ops} {x : Py α} {f : α → Cnt β} {g : α → Py β}
    (h : ∀ a, x = .ok a → f a = tag d (g a)) (he : c + d = e) : (tag c x >>= f) = tag e (x >>= g) := by
  subst he
  cases x with
  | error _ => rfl
  | ok a =>
    have h' := h a rfl
    show (match f a with | .error e => _ | .ok (b, m) => _) = _
    rw [h']
    show _ = tag (c + d) (g a)
    cases g a <;> rfl

theorem bind_ok {α β : Type} {c d e : Ops} {a : α} {f : α → Cnt β} {y : Py β}
    (h : f a = tag d y) (he : c + d = e) : (tag c (.ok a) >>= f) = tag e y :=
  bind_tag (x := .ok a) (g := fun _ => y) (fun b hb => by cases hb; exact h) he

set_option linter.unusedSectionVars false
variable {K : Type} [Field K] [DecidableEq K]

theorem times_tag (a b : K) : times a b = tag ⟨1, 0⟩ (.ok (a * b)) := rfl

theorem over_tag (a b : K) : over a b = tag ⟨1, 1⟩ (pyDiv a b) := by
  unfold over pyDiv
  by_cases hb : b = 0
  · simp only [hb, if_true]; rfl
  · simp only [hb, if_false]; rfl

theorem cMap_tag {α β : Type} (f : α → Cnt β) (g : α → Py β) (m : Nat) (i : Nat) : ∀ l : List α,
    (∀ a ∈ l, f a = tag ⟨m, i⟩ (g a)) → cMap f l = tag ⟨l.length * m, l.length * i⟩ (pyMap g l)
  | [], _ => by simp [cMap, pyMap, pure_tag]
  | a :: l, h => by
    rw [cMap, pyMap, h a (by simp)]
    refine bind_tag (d := ⟨l.length * m, l.length * i⟩) (fun b _ => ?_) (by simp; constructor <;> ring)
    rw [cMap_tag f g m i l (fun b hb => h b (by simp [hb]))]
    exact bind_tag (d := ⟨0, 0⟩) (fun c _ => rfl) (by simp)

/-! ### multi_inv -/

theorem partialsC_tag : ∀ (vs : List K) (last : K), partialsC last vs = tag ⟨vs.length, 0⟩ (.ok (partials last vs))
  | [], _ => rfl
  | v :: vs, last => by
    rw [partialsC, partials, times_tag]
    refine bind_ok (d := ⟨vs.length, 0⟩) ?_ (by simp; omega)
    rw [partialsC_tag vs]
    exact bind_ok (d := ⟨0, 0⟩) rfl (by simp)

theorem backLoopC_tag : ∀ (l : List (K × K)) (inv : K) (outs : List K),
    backLoopC l inv outs = tag ⟨l.length + l.countP (fun pv => pv.2 ≠ 0), 0⟩ (.ok (backLoop eltTruthy l inv outs))
  | [], _, _ => rfl
  | (pr, v) :: rest, inv, outs => by
    rw [backLoopC, backLoop]
    simp only [eltTruthy, if_true, times_tag]
    refine bind_ok (d := ⟨rest.length + ((pr, v) :: rest).countP (fun pv => pv.2 ≠ 0), 0⟩) ?_
      (by simp only [mk_add, List.length_cons, Ops.mk.injEq, and_true]; omega)
    by_cases hv : v ≠ 0
    · rw [if_pos hv, if_pos hv]
      refine bind_ok (backLoopC_tag rest _ _) ?_
      rw [List.countP_cons_of_pos (by simpa using hv)]
      simp only [mk_add, Ops.mk.injEq, and_true]; omega
    · rw [if_neg hv, if_neg hv, pure_tag]
      refine bind_ok (backLoopC_tag rest _ _) ?_
      rw [List.countP_cons_of_neg (by simpa using hv)]
      simp

theorem zip_countP (ps vs : List K) (h : vs.length ≤ ps.length) :
    (ps.zip vs).reverse.countP (fun pv => pv.2 ≠ 0) = vs.countP (fun v => v ≠ 0) := by
  rw [List.countP_reverse]
  have h2 : ((ps.zip vs).map Prod.snd) = vs := by rw [List.map_snd_zip h]
  conv_rhs => rw [← h2, List.countP_map]
  rfl

theorem multiInvC_tag (vs : List K) : multiInvC vs =
    tag ⟨2 * vs.length + vs.countP (fun v => v ≠ 0) + 1, 1⟩ (multiInv eltTruthy recip vs) := by
  have hl := partials_length vs (1 : K)
  unfold multiInvC multiInv
  rw [partialsC_tag]
  refine bind_ok (d := ⟨vs.length + vs.countP (fun v => v ≠ 0) + 1, 1⟩) ?_ (by simp; omega)
  rw [free_tag]
  refine bind_tag (d := ⟨vs.length + vs.countP (fun v => v ≠ 0) + 1, 1⟩) (fun _ _ => ?_) (by simp)
  rw [over_tag, ← recip]
  refine bind_tag (d := ⟨vs.length + vs.countP (fun v => v ≠ 0), 0⟩) (fun inv _ => ?_) (by simp; omega)
  rw [backLoopC_tag, zip_countP _ _ (by omega)]
  simp [hl]

/-! ### Products, values, quotients -/

theorem rootStep_length (x : K) : ∀ l : List K, (rootStep x l).length = l.length
  | [] => rfl
  | [a] => rfl
  | a :: b :: t => by simp [rootStep, rootStep_length x (b :: t)]

theorem rootStepC_tag (x : K) : ∀ l : List K, rootStepC x l = tag ⟨l.length - 1, 0⟩ (.ok (rootStep x l))
  | [] => rfl
  | [a] => rfl
  | a :: b :: t => by
    rw [rootStepC, rootStep, times_tag]
    refine bind_ok (d := ⟨t.length, 0⟩) ?_ (by simp; omega)
    rw [rootStepC_tag x (b :: t)]
    exact bind_ok (d := ⟨0, 0⟩) rfl (by simp)

theorem rootLoopC_tag : ∀ (xs root : List K), rootLoopC xs root =
    tag ⟨∑ i ∈ Finset.range xs.length, (root.length + i), 0⟩ (.ok (rootLoop xs root))
  | [], _ => rfl
  | x :: xs, root => by
    rw [rootLoopC, rootLoop, rootStepC_tag]
    refine bind_ok (rootLoopC_tag xs _) ?_
    simp only [rootStep_length, List.length_cons, mk_add, Ops.mk.injEq, and_true, Finset.sum_range_succ', Nat.add_sub_cancel]
    rw [add_zero, add_comm]
    congr 1
    apply Finset.sum_congr rfl
    intro i _; omega

theorem zpolyC_tag (xs : List K) : zpolyC xs = tag ⟨∑ i ∈ Finset.range xs.length, (i + 1), 0⟩ (.ok (zpoly xs)) := by
  rw [zpolyC, rootLoopC_tag]
  refine bind_ok (d := ⟨0, 0⟩) rfl ?_
  simp [add_comm]

theorem mulInnerC_tag (i : Nat) (a : K) : ∀ (g : List K) (j : Nat) (acc : List K),
    mulInnerC i a j g acc = tag ⟨g.length, 0⟩ (.ok (mulInner i a j g acc))
  | [], _, _ => rfl
  | b :: g, j, acc => by
    rw [mulInnerC, mulInner, times_tag]
    exact bind_ok (mulInnerC_tag i a g _ _) (by simp; omega)

theorem mulOuterC_tag (g : List K) : ∀ (f : List K) (i : Nat) (acc : List K),
    mulOuterC g i f acc = tag ⟨f.length * g.length, 0⟩ (.ok (mulOuter g i f acc))
  | [], _, _ => by simp [mulOuterC, mulOuter, pure_tag]
  | a :: f, i, acc => by
    rw [mulOuterC, mulOuter, mulInnerC_tag]
    exact bind_ok (mulOuterC_tag g f _ _) (by simp; ring)

theorem mulC_tag (f g : List K) : mulC f g = tag ⟨f.length * g.length, 0⟩ (.ok (mul f g)) := by
  unfold mulC mul
  by_cases h : (isZero f || isZero g) = true
  · rw [if_pos h, if_pos h]
    simp only [isZero, beq_iff_eq, Bool.or_eq_true] at h
    rcases h with h | h <;> simp [h, pure_tag]
  · rw [if_neg h, if_neg h, mulOuterC_tag]
    exact bind_ok (d := ⟨0, 0⟩) rfl (by simp)

theorem callLoopC_tag (x : K) : ∀ (f : List K) (y pw : K),
    callLoopC x f y pw = tag ⟨2 * f.length, 0⟩ (.ok (callLoop x f y pw))
  | [], _, _ => rfl
  | a :: f, y, pw => by
    rw [callLoopC, callLoop, times_tag]
    refine bind_ok (d := ⟨1 + 2 * f.length, 0⟩) ?_ (by simp; omega)
    rw [times_tag]
    exact bind_ok (callLoopC_tag x f _ _) (by simp)

theorem callC_tag (f : List K) (x : K) : callC f x = tag ⟨2 * f.length, 0⟩ (.ok (call f x)) := callLoopC_tag x f 0 1

/-- The price of a division with quotient `q` by a divisor with `n` coefficients: one inversion for every non-zero
coefficient of the quotient, and a product of that coefficient's monomial, zeroes included, with the divisor. -/
noncomputable def divCost (n : Nat) (q : K[X]) : Ops := ⟨∑ j ∈ q.support, (1 + (j + 1) * n), q.support.card⟩

theorem divmodLoopC_spec {g : List K} (hg : Canon g) (h0 : g ≠ []) {gLC : K} (hlc : gLC ≠ 0)
    (hcoef : (toPoly g).coeff (g.length - 1) = gLC) :
    ∀ (fuel : Nat) (q r : List K), Canon q → Canon r → r.length < fuel →
      (∀ j, j + g.length ≤ r.length → (toPoly q).coeff j = 0) →
    ∃ q' r' c, divmodLoop g (degree g) gLC fuel q r = .ok (q', r') ∧
      divmodLoopC g (degree g) gLC fuel q r = .ok ((q', r'), c) ∧
      divCost g.length (toPoly q) + c = divCost g.length (toPoly q')
  | 0, _, _, _, _, hf, _ => by omega
  | fuel + 1, q, r, hq, hr, hf, hz => by
    have hgpos : 0 < g.length := List.length_pos_iff.mpr h0
    unfold divmodLoop divmodLoopC
    by_cases hdeg : degree r ≥ degree g
    · have hlen : g.length ≤ r.length := by unfold degree pabs at hdeg; omega
      have hr0 : r ≠ [] := List.length_pos_iff.mp (by omega)
      obtain ⟨a, ha, ha0, hac⟩ := leadingCoefficient_spec hr hr0
      set e : Nat := (degree r - degree g).toNat with he
      have he' : e = r.length - g.length := by rw [he]; unfold degree pabs; omega
      set mono := ctor (List.replicate e 0 ++ [a * gLC⁻¹]) with hmono
      have hc0 : a * gLC⁻¹ ≠ 0 := mul_ne_zero ha0 (inv_ne_zero hlc)
      have hmlen : mono.length = e + 1 := by
        rw [hmono, ctor_of_canon (by intro x hx; simp at hx; rw [← hx]; exact hc0)]; simp
      have hm : toPoly mono = C (a * gLC⁻¹) * X ^ e := by
        rw [hmono, toPoly_ctor, toPoly_append, toPoly_replicate_zero, toPoly_cons, toPoly_nil]
        simp; ring
      have hs : toPoly (sub r (mul mono g)) = toPoly r - C (a * gLC⁻¹) * X ^ e * toPoly g := by
        rw [toPoly_sub, toPoly_mul, hm]
      have hlt : (sub r (mul mono g)).length ≤ r.length - 1 := by
        apply length_le_of_canon (canon_sub _ _)
        intro i hi
        rw [hs, coeff_sub, mul_assoc, coeff_C_mul, coeff_X_pow_mul']
        have hei : e ≤ i := by omega
        rw [if_pos hei]
        rcases Nat.eq_or_lt_of_le hi with h | h
        · have : i - e = g.length - 1 := by omega
          rw [this, hcoef, ← h, hac, mul_assoc, inv_mul_cancel₀ hlc]; ring
        · rw [coeff_eq_zero_of_length_le (by omega : r.length ≤ i),
            coeff_eq_zero_of_length_le (by omega : g.length ≤ i - e)]; ring
      have hadd : toPoly (add q mono) = toPoly q + monomial e (a * gLC⁻¹) := by
        rw [toPoly_add, hm, C_mul_X_pow_eq_monomial]
      obtain ⟨q', r', c, h1, h2, h3⟩ := divmodLoopC_spec hg h0 hlc hcoef fuel (add q mono) (sub r (mul mono g))
        (canon_add _ _) (canon_sub _ _) (by omega) (fun j hj => by
          rw [hadd, coeff_add, hz j (by omega), coeff_monomial, if_neg (by omega), add_zero])
      have hpd : pyDiv a gLC = .ok (a * gLC⁻¹) := by rw [pyDiv, if_neg hlc]
      refine ⟨q', r', ⟨1, 1⟩ + (⟨(e + 1) * g.length, 0⟩ + c), ?_, ?_, ?_⟩
      · rw [if_pos hdeg]
        simp only [ha, hpd, bind, Except.bind]
        exact h1
      · rw [if_pos hdeg, ha, free_tag]
        refine bind_ok (d := ⟨1, 1⟩ + (⟨(e + 1) * g.length, 0⟩ + c)) (y := .ok (q', r')) ?_ (by
          apply Ops.ext' <;> simp)
        rw [over_tag, hpd]
        refine bind_ok (d := ⟨(e + 1) * g.length, 0⟩ + c) ?_ rfl
        show (mulC mono g >>= _) = _
        rw [mulC_tag, hmlen]
        exact bind_ok (d := c) h2 rfl
      · have hnot : e ∉ (toPoly q).support := by
          rw [Polynomial.mem_support_iff, not_not]; exact hz e (by omega)
        have hsup : (toPoly (add q mono)).support = insert e (toPoly q).support := by
          rw [hadd]
          ext j
          rw [Polynomial.mem_support_iff, coeff_add, coeff_monomial, Finset.mem_insert, Polynomial.mem_support_iff]
          by_cases hj : e = j
          · subst hj
            rw [if_pos rfl, hz e (by omega), zero_add]
            simp only [ne_eq, true_or, iff_true]; exact hc0
          · rw [if_neg hj, add_zero]
            constructor
            · intro h; exact Or.inr h
            · rintro (h | h)
              · exact absurd h.symm hj
              · exact h
        rw [← h3]
        apply Ops.ext'
        · simp only [divCost, add_mul', hsup, Finset.sum_insert hnot]; omega
        · simp only [divCost, add_inv', hsup, Finset.card_insert_of_notMem hnot]; omega
    · refine ⟨q, r, 0, by rw [if_neg hdeg], by rw [if_neg hdeg]; rfl, ?_⟩
      apply Ops.ext' <;> simp

theorem divmodC_tag {f g : List K} (hf : Canon f) (hg : Canon g) (h0 : g ≠ []) :
    ∃ q r, divmod f g = .ok (q, r) ∧ divmodC f g = .ok ((q, r), divCost g.length (toPoly q)) := by
  obtain ⟨a, ha, ha0, hac⟩ := leadingCoefficient_spec hg h0
  obtain ⟨q, r, c, h1, h2, h3⟩ := divmodLoopC_spec hg h0 ha0 hac (f.length + 1) [] f Canon.nil hf (by omega)
    (by simp [toPoly_nil])
  refine ⟨q, r, by simp only [divmod, ha, bind, Except.bind, h1], ?_⟩
  have hc : c = divCost g.length (toPoly q) := by
    rw [← h3]; apply Ops.ext' <;> simp [divCost, toPoly_nil]
  rw [divmodC, ha, free_tag, ← hc]
  exact bind_ok (d := c) (y := .ok (q, r)) h2 (by apply Ops.ext' <;> simp)

theorem truedivC_tag {f g : List K} (hf : Canon f) (hg : Canon g) (h0 : g ≠ []) :
    ∃ q, truediv f g = .ok q ∧ truedivC f g = .ok (q, divCost g.length (toPoly q)) := by
  obtain ⟨q, r, h1, h2⟩ := divmodC_tag hf hg h0
  have hz : isZero g = false := by simpa [isZero] using h0
  refine ⟨q, by simp only [truediv, hz, Bool.false_eq_true, if_false, h1, bind, Except.bind], ?_⟩
  simp only [truedivC, hz, Bool.false_eq_true, if_false]
  rw [h2]
  exact bind_ok (c := divCost g.length (toPoly q)) (a := (q, r)) (d := ⟨0, 0⟩) (y := .ok q) rfl (by apply Ops.ext' <;> simp)

/-! ### Interpolation -/

theorem addScaledC_tag (c : K) : ∀ (b n : List K), addScaledC c b n = tag ⟨b.length, 0⟩ (addScaled c b n)
  | [], _ => rfl
  | _ :: _, [] => rfl
  | b :: bs, n :: ns => by
    rw [addScaledC, addScaled]
    simp only [eltTruthy, Bool.and_self, if_true]
    have h1 : (times n c >>= fun m => (pure (b + m) : Cnt K)) = tag ⟨1, 0⟩ (.ok (b + n * c)) := rfl
    rw [h1]
    refine bind_ok (d := ⟨bs.length, 0⟩) ?_ (by simp; omega)
    rw [addScaledC_tag c bs ns]
    exact bind_tag (d := ⟨0, 0⟩) (fun r _ => rfl) (by simp)

theorem addScaled_length (c : K) : ∀ (b n r : List K), addScaled c b n = .ok r → r.length = b.length
  | [], _, r, h => by cases h; rfl
  | _ :: _, [], r, h => by cases h
  | b :: bs, n :: ns, r, h => by
    rw [addScaled] at h
    cases hr : addScaled c bs ns with
    | error e => rw [hr] at h; cases h
    | ok r' =>
      rw [hr] at h
      cases h
      simp [addScaled_length c bs ns r' hr]

theorem interpLoopC_tag : ∀ (nums : List (List K)) (ys ds b : List K),
    interpLoopC nums ys ds b = tag ⟨nums.length * (b.length + 1), 0⟩ (interpLoop nums ys ds b)
  | [], _, _, b => by simp [interpLoopC, interpLoop, pure_tag]
  | _ :: _, [], _, _ => rfl
  | _ :: _, _ :: _, [], _ => rfl
  | num :: nums, y :: ys, d :: ds, b => by
    rw [interpLoopC, interpLoop, times_tag]
    refine bind_ok (d := ⟨b.length + nums.length * (b.length + 1), 0⟩) ?_ (by simp; ring)
    rw [addScaledC_tag]
    refine bind_tag (d := ⟨nums.length * (b.length + 1), 0⟩) (fun r hr => ?_) (by simp)
    rw [interpLoopC_tag nums, addScaled_length _ _ _ _ hr]

/-- Several counted computations with prices of their own. -/
theorem cMap_sum {α β : Type} (f : α → Cnt β) (g : α → Py β) (cost : α → Ops) : ∀ l : List α,
    (∀ a ∈ l, ∃ b, g a = .ok b ∧ f a = .ok (b, cost a)) →
    ∃ r, pyMap g l = .ok r ∧ cMap f l = .ok (r, ⟨(l.map fun a => (cost a).mul).sum, (l.map fun a => (cost a).inv).sum⟩)
  | [], _ => ⟨[], rfl, rfl⟩
  | a :: l, h => by
    obtain ⟨b, h1, h2⟩ := h a (by simp)
    obtain ⟨r, h3, h4⟩ := cMap_sum f g cost l (fun b hb => h b (by simp [hb]))
    refine ⟨b :: r, by simp only [pyMap, h1, h3, bind, Except.bind], ?_⟩
    rw [cMap, h2]
    refine bind_ok (c := cost a) (a := b) (y := .ok (b :: r))
      (d := ⟨(l.map fun a => (cost a).mul).sum, (l.map fun a => (cost a).inv).sum⟩) ?_ ?_
    · rw [h4]
      exact bind_ok (c := ⟨_, _⟩) (a := r) (y := .ok (b :: r)) (d := ⟨0, 0⟩) rfl (by simp)
    · apply Ops.ext' <;> simp

theorem lagrangeInterpC_spec (xs ys : List K) (hl : ys.length = xs.length) :
    ∃ r, lagrangeInterp xs ys = .ok r ∧
      lagrangeInterpC xs ys = .ok (r,
        ⟨(∑ i ∈ Finset.range xs.length, (i + 1)) +
          (∑ i ∈ Finset.range xs.length, (divCost 2 (numer xs i)).mul) +
          2 * xs.length ^ 2 +
          (2 * xs.length + (Finset.range xs.length).sum (fun i => if (numer xs i).eval (xs.getD i 0) ≠ 0 then 1 else 0) + 1) +
          xs.length * (xs.length + 1),
        (∑ i ∈ Finset.range xs.length, (numer xs i).support.card) + 1⟩) := by
  obtain ⟨r, hr, -⟩ := lagrangeInterp_sum xs ys hl
  refine ⟨r, hr, ?_⟩
  obtain ⟨nums, h1, h2, h3⟩ := nums_spec xs
  have hnl : ∀ l ∈ nums, l.length = xs.length := by
    intro l hl
    obtain ⟨i, hi, rfl⟩ := List.getElem_of_mem hl
    have hi' : i < xs.length := by omega
    have hd := numer_natDegree xs i hi'
    have hc := h3 i hi
    have := natDegree_toPoly hc.1
    rw [hc.2, hd.1] at this
    have hne : nums[i] ≠ [] := fun h => by
      have := hc.2; rw [h, toPoly_nil] at this; exact hd.2.ne_zero this.symm
    have := List.length_pos_iff.2 hne
    omega
  -- the quotients
  have hlin : ∀ x : K, (ctor [-x, 1]).length = 2 := fun x => by rw [ctor_two]; rfl
  set quo : K → K[X] := fun x => toPoly (zpoly xs) / (X - C x) with hquo
  have hq : ∀ x ∈ xs, ∃ q, truediv (zpoly xs) (ctor [-x, 1]) = .ok q ∧
      truedivC (zpoly xs) (ctor [-x, 1]) = .ok (q, divCost 2 (quo x)) := by
    intro x _
    obtain ⟨c1, c2, c3⟩ := canon_linear x
    obtain ⟨q, e1, e2⟩ := truedivC_tag (canon_zpoly xs) c1 c2
    obtain ⟨q', e3, -, e4⟩ := truediv_eq (canon_zpoly xs) c1 c2
    rw [e1] at e3
    cases e3
    refine ⟨q, e1, ?_⟩
    rw [e2, e4, hlin, c3]
  obtain ⟨nums', k1, k2⟩ := cMap_sum (fun x => truedivC (zpoly xs) (ctor [-x, 1])) (fun x => truediv (zpoly xs) (ctor [-x, 1]))
    (fun x => divCost 2 (quo x)) xs hq
  rw [h1] at k1
  cases k1
  have hquo' : ∀ (i : Nat) (h : i < xs.length), quo xs[i] = numer xs i := fun i h => by
    rw [hquo]
    simp only
    rw [toPoly_zpoly, linprod_eq xs i h]
    exact mul_div_cancel_left₀ _ (Polynomial.X_sub_C_ne_zero _)
  have hs1 : (xs.map fun x => (divCost 2 (quo x)).mul).sum = ∑ i ∈ Finset.range xs.length, (divCost 2 (numer xs i)).mul := by
    apply sum_zip_range _ _ (by simp)
    intro i hi
    simp only [List.getElem_map]
    rw [hquo' i (by simpa using hi)]
  have hs2 : (xs.map fun x => (divCost 2 (quo x)).inv).sum = ∑ i ∈ Finset.range xs.length, (numer xs i).support.card := by
    apply sum_zip_range _ _ (by simp)
    intro i hi
    simp only [List.getElem_map]
    rw [hquo' i (by simpa using hi)]; rfl
  rw [hs1, hs2] at k2
  -- the values
  set denoms : List K := (nums.zip xs).map fun nx => call nx.1 nx.2 with hden
  have hdl : denoms.length = xs.length := by simp [hden, h2]
  have hv : cMap (fun nx : List K × K => callC nx.1 nx.2) (nums.zip xs) = .ok (denoms, ⟨2 * xs.length ^ 2, 0⟩) := by
    rw [cMap_tag (fun nx : List K × K => callC nx.1 nx.2) (fun nx => .ok (call nx.1 nx.2)) (2 * xs.length) 0 (nums.zip xs)
      (fun a ha => by rw [callC_tag, hnl a.1 (List.of_mem_zip ha).1]),
      pyMap_ok _ (fun nx : List K × K => call nx.1 nx.2) _ (fun _ _ => rfl)]
    simp only [List.length_zip, h2, Nat.min_self, mul_zero, tag_ok, hden]
    congr 3
    ring
  have hcount : denoms.countP (fun v => v ≠ 0) =
      (Finset.range xs.length).sum (fun i => if (numer xs i).eval (xs.getD i 0) ≠ 0 then 1 else 0) := by
    have : denoms.countP (fun v => v ≠ 0) = (denoms.map fun v => if v ≠ 0 then 1 else 0).sum := by
      generalize denoms = l
      induction l with
      | nil => rfl
      | cons a l ih =>
        rw [List.countP_cons, List.map_cons, List.sum_cons, ih, add_comm]
        by_cases h : a = 0 <;> simp [h]
    rw [this]
    apply sum_zip_range _ _ (by simp [hdl])
    intro i hi
    have hi' : i < xs.length := by simpa [hdl] using hi
    simp only [List.getElem_map, hden, List.getElem_zip, call_eq_eval]
    rw [(h3 i (by omega)).2]
    simp [List.getElem?_eq_getElem hi']
  have hz : (pabs (zpoly xs) == ys.length + 1) = true := by simp [pabs, zpoly_length, hl]
  -- put together
  have hval : ∃ ids b, multiInv eltTruthy recip denoms = .ok ids ∧ interpLoop nums ys ids (ys.map fun _ => 0) = .ok b ∧
      ctor b = r := by
    rw [lagrangeInterp] at hr
    simp only [hz, pyAssert, if_true, bind, Except.bind, h1, ← hden] at hr
    cases hm : multiInv eltTruthy recip denoms with
    | error e => rw [hm] at hr; cases hr
    | ok ids =>
      rw [hm] at hr
      simp only at hr
      cases hb : interpLoop nums ys ids (ys.map fun _ => 0) with
      | error e => rw [hb] at hr; cases hr
      | ok b => rw [hb] at hr; cases hr; exact ⟨ids, b, rfl, hb, rfl⟩
  obtain ⟨ids, b, m1, m2, m3⟩ := hval
  rw [lagrangeInterpC, zpolyC_tag]
  rw [show (.ok (r, _) : Cnt (List K)) = tag _ (.ok r) from rfl]
  refine bind_ok (d := ⟨(∑ i ∈ Finset.range xs.length, (divCost 2 (numer xs i)).mul) + (2 * xs.length ^ 2 +
      ((2 * denoms.length + denoms.countP (fun v => v ≠ 0) + 1) + xs.length * (xs.length + 1))),
      (∑ i ∈ Finset.range xs.length, (numer xs i).support.card) + 1⟩) ?_ (by
    rw [hcount, hdl]; simp only [mk_add, Ops.mk.injEq]; constructor <;> ring)
  rw [hz, free_tag]
  refine bind_ok ?_ (zero_add_ops _)
  rw [k2]
  refine bind_ok (c := ⟨_, _⟩) (a := nums) (d := ⟨2 * xs.length ^ 2 +
      ((2 * denoms.length + denoms.countP (fun v => v ≠ 0) + 1) + xs.length * (xs.length + 1)), 1⟩) ?_ rfl
  rw [hv]
  refine bind_ok (c := ⟨_, _⟩) (a := denoms) (d := ⟨(2 * denoms.length + denoms.countP (fun v => v ≠ 0) + 1) +
      xs.length * (xs.length + 1), 1⟩) ?_ (by simp)
  rw [multiInvC_tag, m1]
  refine bind_ok (d := ⟨xs.length * (xs.length + 1), 0⟩) ?_ (by simp)
  rw [interpLoopC_tag, m2]
  refine bind_ok (d := ⟨0, 0⟩) (by rw [m3]; rfl) (by simp [h2, hl])

theorem cubicsC_tag (x0 x1 x2 x3 : K) : cubicsC x0 x1 x2 x3 = tag ⟨10, 0⟩ (.ok (cubics x0 x1 x2 x3)) := rfl

theorem combine4C_tag (e0 e1 e2 e3 : List K) (a0 a1 a2 a3 : K) : ∀ is : List Nat,
    combine4C e0 e1 e2 e3 a0 a1 a2 a3 is = tag ⟨4 * is.length, 0⟩ (combine4 e0 e1 e2 e3 a0 a1 a2 a3 is)
  | [] => rfl
  | i :: is => by
    rw [combine4C, combine4]
    simp only [free_tag]
    refine bind_tag (fun c0 _ => ?_) (zero_add_ops _)
    refine bind_tag (fun c1 _ => ?_) (zero_add_ops _)
    refine bind_tag (fun c2 _ => ?_) (zero_add_ops _)
    refine bind_tag (fun c3 _ => ?_) (zero_add_ops _)
    simp only [times_tag]
    refine bind_ok (d := ⟨3 + 4 * is.length, 0⟩) ?_ (by simp; omega)
    refine bind_ok (d := ⟨2 + 4 * is.length, 0⟩) ?_ (by simp; omega)
    refine bind_ok (d := ⟨1 + 4 * is.length, 0⟩) ?_ (by simp; omega)
    refine bind_ok (d := ⟨4 * is.length, 0⟩) ?_ (by simp)
    rw [combine4C_tag _ _ _ _ _ _ _ _ is]
    exact bind_tag (d := ⟨0, 0⟩) (fun r _ => rfl) (by simp)

theorem times4_tag (a b c d : K) : times4 a b c d = tag ⟨3, 0⟩ (.ok (a * b * c * d)) := rfl

theorem call_cubicsC (x0 x1 x2 x3 x : K) :
    callC (cubics x0 x1 x2 x3).1 x = tag ⟨8, 0⟩ (.ok (call (cubics x0 x1 x2 x3).1 x)) ∧
    callC (cubics x0 x1 x2 x3).2.1 x = tag ⟨8, 0⟩ (.ok (call (cubics x0 x1 x2 x3).2.1 x)) ∧
    callC (cubics x0 x1 x2 x3).2.2.1 x = tag ⟨8, 0⟩ (.ok (call (cubics x0 x1 x2 x3).2.2.1 x)) ∧
    callC (cubics x0 x1 x2 x3).2.2.2 x = tag ⟨8, 0⟩ (.ok (call (cubics x0 x1 x2 x3).2.2.2 x)) := by
  simp only [callC_tag, cubics_eq]
  exact ⟨rfl, rfl, rfl, rfl⟩

theorem lagrangeInterp4C_tag (xs ys : List K) :
    lagrangeInterp4C xs ys = tag ⟨74, 1⟩ (lagrangeInterp4 xs ys) := by
  rw [lagrangeInterp4C, lagrangeInterp4]
  simp only [free_tag]
  refine bind_tag (fun x0 _ => ?_) (zero_add_ops _)
  refine bind_tag (fun x1 _ => ?_) (zero_add_ops _)
  refine bind_tag (fun x2 _ => ?_) (zero_add_ops _)
  refine bind_tag (fun x3 _ => ?_) (zero_add_ops _)
  rw [cubicsC_tag]
  refine bind_ok (d := ⟨64, 1⟩) ?_ (by simp)
  rw [(call_cubicsC x0 x1 x2 x3 x0).1]
  refine bind_ok (d := ⟨56, 1⟩) ?_ (by simp)
  rw [(call_cubicsC x0 x1 x2 x3 x1).2.1]
  refine bind_ok (d := ⟨48, 1⟩) ?_ (by simp)
  rw [(call_cubicsC x0 x1 x2 x3 x2).2.2.1]
  refine bind_ok (d := ⟨40, 1⟩) ?_ (by simp)
  rw [(call_cubicsC x0 x1 x2 x3 x3).2.2.2]
  refine bind_ok (d := ⟨32, 1⟩) ?_ (by simp)
  simp only [times_tag, times4_tag]
  refine bind_ok (d := ⟨31, 1⟩) ?_ (by simp)
  refine bind_ok (d := ⟨30, 1⟩) ?_ (by simp)
  refine bind_ok (d := ⟨29, 1⟩) ?_ (by simp)
  rw [over_tag, ← recip]
  refine bind_tag (d := ⟨28, 0⟩) (fun inv _ => ?_) (by simp)
  refine bind_tag (fun y0 _ => ?_) (zero_add_ops _)
  refine bind_tag (fun y1 _ => ?_) (zero_add_ops _)
  refine bind_tag (fun y2 _ => ?_) (zero_add_ops _)
  refine bind_tag (fun y3 _ => ?_) (zero_add_ops _)
  refine bind_ok (d := ⟨25, 0⟩) ?_ (by simp)
  refine bind_ok (d := ⟨22, 0⟩) ?_ (by simp)
  refine bind_ok (d := ⟨19, 0⟩) ?_ (by simp)
  refine bind_ok (d := ⟨16, 0⟩) ?_ (by simp)
  rw [combine4C_tag]
  exact bind_tag (d := ⟨0, 0⟩) (fun r _ => rfl) (by simp)

theorem lagrangeInterp2C_tag (xs ys : List K) :
    lagrangeInterp2C xs ys = tag ⟨18, 1⟩ (lagrangeInterp2 xs ys) := by
  rw [lagrangeInterp2C, lagrangeInterp2]
  simp only [free_tag]
  refine bind_tag (fun x1 _ => ?_) (zero_add_ops _)
  refine bind_tag (fun x0 _ => ?_) (zero_add_ops _)
  simp only [ctor_two, callC_tag]
  refine bind_ok (d := ⟨14, 1⟩) ?_ (by simp)
  refine bind_ok (d := ⟨10, 1⟩) ?_ (by simp)
  simp only [times_tag]
  refine bind_ok (d := ⟨9, 1⟩) ?_ (by simp)
  rw [over_tag, ← recip]
  refine bind_tag (d := ⟨8, 0⟩) (fun inv _ => ?_) (by simp)
  refine bind_tag (fun y0 _ => ?_) (zero_add_ops _)
  refine bind_tag (fun y1 _ => ?_) (zero_add_ops _)
  refine bind_ok (d := ⟨7, 0⟩) ?_ (by simp)
  refine bind_ok (d := ⟨6, 0⟩) ?_ (by simp)
  refine bind_ok (d := ⟨5, 0⟩) ?_ (by simp)
  refine bind_ok (d := ⟨4, 0⟩) ?_ (by simp)
  rfl

theorem interp4DataC_tag (xs : List K) : interp4DataC xs = tag ⟨42, 0⟩ (interp4Data xs) := by
  rw [interp4DataC, interp4Data]
  simp only [free_tag]
  refine bind_tag (fun x0 _ => ?_) (zero_add_ops _)
  refine bind_tag (fun x1 _ => ?_) (zero_add_ops _)
  refine bind_tag (fun x2 _ => ?_) (zero_add_ops _)
  refine bind_tag (fun x3 _ => ?_) (zero_add_ops _)
  rw [cubicsC_tag]
  refine bind_ok (d := ⟨32, 0⟩) ?_ (by simp)
  rw [(call_cubicsC x0 x1 x2 x3 x0).1]
  refine bind_ok (d := ⟨24, 0⟩) ?_ (by simp)
  rw [(call_cubicsC x0 x1 x2 x3 x1).2.1]
  refine bind_ok (d := ⟨16, 0⟩) ?_ (by simp)
  rw [(call_cubicsC x0 x1 x2 x3 x2).2.2.1]
  refine bind_ok (d := ⟨8, 0⟩) ?_ (by simp)
  rw [(call_cubicsC x0 x1 x2 x3 x3).2.2.2]
  rfl

theorem interp4FinishC_tag (ys : List K) (eqs : List K × List K × List K × List K) (inv : List K) :
    interp4FinishC ys eqs inv = tag ⟨20, 0⟩ (interp4Finish ys eqs inv) := by
  rw [interp4FinishC, interp4Finish]
  simp only [free_tag, times_tag]
  refine bind_tag (fun y0 _ => ?_) (zero_add_ops _)
  refine bind_tag (fun i0 _ => ?_) (zero_add_ops _)
  refine bind_ok (d := ⟨19, 0⟩) ?_ (by simp)
  refine bind_tag (fun y1 _ => ?_) (zero_add_ops _)
  refine bind_tag (fun i1 _ => ?_) (zero_add_ops _)
  refine bind_ok (d := ⟨18, 0⟩) ?_ (by simp)
  refine bind_tag (fun y2 _ => ?_) (zero_add_ops _)
  refine bind_tag (fun i2 _ => ?_) (zero_add_ops _)
  refine bind_ok (d := ⟨17, 0⟩) ?_ (by simp)
  refine bind_tag (fun y3 _ => ?_) (zero_add_ops _)
  refine bind_tag (fun i3 _ => ?_) (zero_add_ops _)
  refine bind_ok (d := ⟨16, 0⟩) ?_ (by simp)
  rw [combine4C_tag]
  exact bind_tag (d := ⟨0, 0⟩) (fun r _ => rfl) (by simp)

theorem interp4LoopC_tag (invalls : List K) : ∀ (l : List (List K × (List K × List K × List K × List K))) (i : Nat),
    interp4LoopC invalls i l = tag ⟨20 * l.length, 0⟩ (interp4Loop invalls i l)
  | [], _ => rfl
  | (ys, eqs) :: rest, i => by
    rw [interp4LoopC, interp4Loop, interp4FinishC_tag]
    refine bind_tag (d := ⟨20 * rest.length, 0⟩) (fun p _ => ?_) (by simp; omega)
    rw [interp4LoopC_tag invalls rest]
    exact bind_tag (d := ⟨0, 0⟩) (fun r _ => rfl) (by simp)

theorem pyMap_mem {α β : Type _} (f : α → Py β) : ∀ (l : List α) (r : List β), pyMap f l = .ok r →
    r.length = l.length ∧ ∀ b ∈ r, ∃ a ∈ l, f a = .ok b
  | [], r, h => by cases h; simp
  | a :: l, r, h => by
    rw [pyMap] at h
    cases hb : f a with
    | error e => rw [hb] at h; cases h
    | ok b =>
      rw [hb] at h
      cases hl : pyMap f l with
      | error e => rw [hl] at h; cases h
      | ok r' =>
        rw [hl] at h
        cases h
        obtain ⟨e1, e2⟩ := pyMap_mem f l r' hl
        refine ⟨by simp [e1], fun c hc => ?_⟩
        rcases List.mem_cons.1 hc with rfl | hc
        · exact ⟨a, by simp, hb⟩
        · obtain ⟨a', h1, h2⟩ := e2 c hc
          exact ⟨a', by simp [h1], h2⟩

theorem interp4Data_vals (xs : List K) (d : (List K × List K × List K × List K) × List K) (h : interp4Data xs = .ok d) :
    ∃ x0 x1 x2 x3 t, xs = x0 :: x1 :: x2 :: x3 :: t ∧ d.2 = [(x0 - x1) * (x0 - x2) * (x0 - x3), (x1 - x0) * (x1 - x2) * (x1 - x3),
      (x2 - x0) * (x2 - x1) * (x2 - x3), (x3 - x0) * (x3 - x1) * (x3 - x2)] := by
  rcases xs with _ | ⟨x0, _ | ⟨x1, _ | ⟨x2, _ | ⟨x3, t⟩⟩⟩⟩
  · cases h
  · cases h
  · cases h
  · cases h
  · obtain ⟨c0, c1, c2, c3⟩ := call_cubics x0 x1 x2 x3
    refine ⟨x0, x1, x2, x3, t, rfl, ?_⟩
    simp only [interp4Data, pyIdx, List.getElem?_cons_zero, List.getElem?_cons_succ, bind, Except.bind, c0, c1, c2, c3] at h
    cases h
    rfl

theorem multiInterp4C_spec (xsets ysets : List (List K)) (out : List (List K)) (h : multiInterp4 xsets ysets = .ok out) :
    ∃ z, multiInterp4C xsets ysets = .ok (out, ⟨70 * (xsets.zip ysets).length + z + 1, 1⟩) ∧ z ≤ 4 * (xsets.zip ysets).length ∧
      ((∀ xs ∈ xsets, (xs.take 4).Nodup) → z = 4 * (xsets.zip ysets).length) := by
  rw [multiInterp4] at h
  set g : List K × List K → Py (List K × ((List K × List K × List K × List K) × List K)) :=
    fun s => do let d ← interp4Data s.1; .ok (s.2, d) with hg
  cases hd : pyMap g (xsets.zip ysets) with
  | error e => rw [hd] at h; cases h
  | ok data =>
    rw [hd] at h
    have hC := cMap_tag (fun s : List K × List K => do let d ← interp4DataC s.1; pure (s.2, d)) g 42 0 (xsets.zip ysets)
      (fun a _ => by
        rw [interp4DataC_tag]
        exact bind_tag (d := ⟨0, 0⟩) (fun r _ => rfl) (by simp))
    rw [hd] at hC
    obtain ⟨hlen, hmem⟩ := pyMap_mem g _ _ hd
    have hdata : ∀ d ∈ data, ∃ x0 x1 x2 x3 t, (x0 :: x1 :: x2 :: x3 :: t) ∈ xsets ∧
        d.2.2 = [(x0 - x1) * (x0 - x2) * (x0 - x3), (x1 - x0) * (x1 - x2) * (x1 - x3),
      (x2 - x0) * (x2 - x1) * (x2 - x3), (x3 - x0) * (x3 - x1) * (x3 - x2)] := by
      intro d hdm
      obtain ⟨s, hs, hgs⟩ := hmem d hdm
      rw [hg] at hgs
      simp only at hgs
      cases hi : interp4Data s.1 with
      | error e => rw [hi] at hgs; cases hgs
      | ok d' =>
        rw [hi] at hgs
        cases hgs
        obtain ⟨x0, x1, x2, x3, t, e1, e2⟩ := interp4Data_vals _ _ hi
        exact ⟨x0, x1, x2, x3, t, e1 ▸ (List.of_mem_zip (show (s.1, s.2) ∈ _ from hs)).1, e2⟩
    have hflat : (data.map fun d => d.2.2).flatten.length = 4 * data.length := by
      have : ∀ l : List (List K × ((List K × List K × List K × List K) × List K)), (∀ d ∈ l, d.2.2.length = 4) →
          (l.map fun d => d.2.2).flatten.length = 4 * l.length := by
        intro l
        induction l with
        | nil => intro _; rfl
        | cons a l ih =>
          intro h
          rw [List.map_cons, List.flatten_cons, List.length_append, ih (fun d hd => h d (by simp [hd])), h a (by simp),
            List.length_cons]
          omega
      apply this
      intro d hdm
      obtain ⟨_, _, _, _, _, _, e⟩ := hdata d hdm
      rw [e]; rfl
    have h' : (multiInv eltTruthy recip (data.map fun d => d.2.2).flatten >>= fun invalls =>
        interp4Loop invalls 0 (data.map fun d => (d.1, d.2.1))) = .ok out := h
    refine ⟨(data.map fun d => d.2.2).flatten.countP (fun v => v ≠ 0), ?_, ?_, ?_⟩
    · rw [multiInterp4C, hC]
      refine bind_ok (d := ⟨28 * data.length + (data.map fun d => d.2.2).flatten.countP (fun v => v ≠ 0) + 1, 1⟩)
        (y := .ok out) ?_ (by rw [hlen]; simp; omega)
      rw [multiInvC_tag, hflat, ← h']
      refine bind_tag (d := ⟨20 * data.length, 0⟩) (fun ia _ => ?_) (by simp; omega)
      rw [interp4LoopC_tag]; simp
    · rw [← hlen, ← hflat]; exact List.countP_le_length
    · intro hx
      rw [← hlen, ← hflat, List.countP_eq_length]
      intro v hv
      obtain ⟨l, hl, hvl⟩ := List.mem_flatten.1 hv
      obtain ⟨d, hdm, rfl⟩ := List.mem_map.1 hl
      obtain ⟨x0, x1, x2, x3, t, e1, e2⟩ := hdata d hdm
      obtain ⟨n01, n02, n03, n12, n13, n23, n10, n20, n30, n21, n31, n32⟩ := nodup_four (hx _ e1)
      rw [e2] at hvl
      simp only [List.mem_cons, List.not_mem_nil, or_false] at hvl
      rcases hvl with rfl | rfl | rfl | rfl
      · simpa using ⟨⟨n01, n02⟩, n03⟩
      · simpa using ⟨⟨n10, n12⟩, n13⟩
      · simpa using ⟨⟨n20, n21⟩, n23⟩
      · simpa using ⟨⟨n30, n31⟩, n32⟩

/-! ### Transforms -/

theorem simpleRowC_tag (vals roots : List K) (i : Nat) : ∀ (n j : Nat) (last : K),
    simpleRowC vals roots i n j last = tag ⟨n, 0⟩ (simpleRow vals roots i n j last)
  | 0, _, _ => rfl
  | n + 1, j, last => by
    rw [simpleRowC, simpleRow]
    simp only [free_tag]
    refine bind_tag (fun v _ => ?_) (zero_add_ops _)
    refine bind_tag (fun r _ => ?_) (zero_add_ops _)
    rw [times_tag]
    exact bind_ok (simpleRowC_tag vals roots i n _ _) (by simp; omega)

theorem simpleFtC_tag (vals roots : List K) :
    simpleFtC vals roots = tag ⟨roots.length * roots.length, 0⟩ (simpleFt vals roots) := by
  rw [simpleFtC, simpleFt, cMap_tag _ (fun i => simpleRow vals roots i roots.length 0 0) roots.length 0 _
    (fun i _ => simpleRowC_tag _ _ _ _ _ _)]
  simp

theorem butterflyC_tag (roots : List K) (h : Nat) : ∀ (l : List (K × K)) (i : Nat) (o : List K),
    butterflyC roots h l i o = tag ⟨l.length, 0⟩ (butterfly roots h l i o)
  | [], _, _ => rfl
  | (x, y) :: rest, i, o => by
    rw [butterflyC, butterfly]
    simp only [free_tag]
    refine bind_tag (fun r _ => ?_) (zero_add_ops _)
    rw [times_tag]
    refine bind_ok (d := ⟨rest.length, 0⟩) ?_ (by simp; omega)
    refine bind_tag (fun o1 _ => ?_) (zero_add_ops _)
    refine bind_tag (fun o2 _ => ?_) (zero_add_ops _)
    exact butterflyC_tag roots h rest _ _

/-- Multiplications of a transform of size `n`. -/
def fftMuls : Nat → Nat
  | n => if n ≤ 4 then n * n else 2 * fftMuls (n / 2) + n / 2
decreasing_by omega

theorem fftMuls_pow (k : Nat) : fftMuls (2 ^ (k + 2)) = 2 ^ (k + 2) * (k + 8) / 2 := by
  induction k with
  | zero => decide +kernel
  | succ k ih =>
    have hp : 0 < 2 ^ k := by positivity
    rw [fftMuls, if_neg (by rw [show 2 ^ (k + 1 + 2) = 8 * 2 ^ k by ring]; omega),
      show 2 ^ (k + 1 + 2) / 2 = 2 ^ (k + 2) by rw [show 2 ^ (k + 1 + 2) = 2 ^ (k + 2) * 2 by ring]; omega, ih]
    rw [show 2 ^ (k + 2) * (k + 8) = 2 * (2 ^ (k + 1) * (k + 8)) by ring,
      show 2 ^ (k + 1 + 2) * (k + 1 + 8) = 2 * (2 ^ (k + 2) * (k + 9)) by ring]
    simp only [Nat.mul_div_cancel_left _ (show 0 < 2 by omega)]
    ring

theorem fftMuls_three (k : Nat) : fftMuls (3 * 2 ^ k) = 3 * 2 ^ k * (k + 6) / 2 := by
  induction k with
  | zero => decide +kernel
  | succ k ih =>
    have hp : 0 < 2 ^ k := by positivity
    rw [fftMuls, if_neg (by rw [show 3 * 2 ^ (k + 1) = 6 * 2 ^ k by ring]; omega),
      show 3 * 2 ^ (k + 1) / 2 = 3 * 2 ^ k by rw [show 3 * 2 ^ (k + 1) = 3 * 2 ^ k * 2 by ring]; omega, ih]
    rw [show 3 * 2 ^ (k + 1) * (k + 1 + 6) = 2 * (3 * 2 ^ k * (k + 7)) by ring,
      Nat.mul_div_cancel_left _ (show 0 < 2 by omega)]
    rcases Nat.even_or_odd' (3 * 2 ^ k * (k + 6)) with ⟨c, hc | hc⟩
    · rw [hc, Nat.mul_div_cancel_left _ (show 0 < 2 by omega), ← hc]; ring
    · exfalso
      cases k with
      | zero => simp at hc; omega
      | succ k =>
        have : 3 * 2 ^ (k + 1) * (k + 1 + 6) = 2 * (3 * 2 ^ k * (k + 7)) := by ring
        omega

theorem fftRecC_spec {n : Nat} (hg : Good n) : ∀ (fuel : Nat) (u : K) (vals : List K), orderOf u = n → vals.length = n →
    n < fuel → fftRecC fuel vals (powers u n) = .ok (dft u n vals, ⟨fftMuls n, 0⟩) := by
  induction hg with
  | base n h1 h2 =>
    intro fuel u vals hu hv hf
    obtain ⟨f, rfl⟩ : ∃ f, fuel = f + 1 := ⟨fuel - 1, by omega⟩
    rw [fftRecC, if_pos (by omega), simpleFtC_tag, simpleFt_ok vals u n hv (by rw [← hu, pow_orderOf_eq_one]), tag_ok,
      powers_length, fftMuls, if_pos h2]
  | double h hg ih =>
    intro fuel u vals hu hv hf
    have hpos := hg.pos
    obtain ⟨f, rfl⟩ : ∃ f, fuel = f + 1 := ⟨fuel - 1, by omega⟩
    rw [fftRecC]
    by_cases h4 : vals.length ≤ 4
    · rw [if_pos h4, simpleFtC_tag, simpleFt_ok vals u _ hv (by rw [← hu, pow_orderOf_eq_one]), tag_ok,
        powers_length, fftMuls, if_pos (by omega)]
    have hfull := fftRec_ok (.double h hg) (f + 1) u vals hu hv hf
    rw [fftRec, if_neg h4, evens_powers] at hfull
    rw [if_neg h4, evens_powers]
    have hsq := order_sq hu
    have l1 : (evens vals).length = h := by rw [evens_length, hv]; omega
    have l2 : (odds vals).length = h := by rw [odds_length, hv]; omega
    rw [fftRec_ok hg f (u ^ 2) (evens vals) hsq l1 (by omega), fftRec_ok hg f (u ^ 2) (odds vals) hsq l2 (by omega)] at hfull
    rw [ih f (u ^ 2) (evens vals) hsq l1 (by omega), ih f (u ^ 2) (odds vals) hsq l2 (by omega)]
    have hfull' : butterfly (powers u (2 * h)) (dft (u ^ 2) h (evens vals)).length
        ((dft (u ^ 2) h (evens vals)).zip (dft (u ^ 2) h (odds vals))) 0 (vals.map fun _ => 0) = .ok (dft u (2 * h) vals) := hfull
    have hm : fftMuls (2 * h) = 2 * fftMuls h + h := by
      rw [fftMuls, if_neg (by omega), show 2 * h / 2 = h by omega]
    refine bind_ok (c := ⟨fftMuls h, 0⟩) (a := dft (u ^ 2) h (evens vals)) (d := ⟨fftMuls h + h, 0⟩)
      (y := .ok (dft u (2 * h) vals)) (e := ⟨fftMuls (2 * h), 0⟩) ?_ (by rw [hm]; simp; omega)
    refine bind_ok (c := ⟨fftMuls h, 0⟩) (a := dft (u ^ 2) h (odds vals)) (d := ⟨h, 0⟩) ?_ (by simp)
    rw [butterflyC_tag, hfull']
    simp

theorem fftC_spec {n : Nat} (hg : Good n) (u : K) (vals : List K) (hu : orderOf u = n) (hv : vals.length = n) :
    fftC vals (powers u n) = .ok (dft u n vals, ⟨fftMuls n, 0⟩) := fftRecC_spec hg _ u vals hu hv (by omega)

theorem cycleLoopC_spec (r : K) : ∀ (fuel : Nat) (o : List K) (last : K) (out : List K),
    Utils.cycleLoop r fuel o last = .ok out → cycleLoopC r fuel o last = .ok (out, ⟨out.length - o.length, 0⟩) ∧ o.length ≤ out.length
  | 0, _, _, _, h => by cases h
  | fuel + 1, o, last, out, h => by
    rw [Utils.cycleLoop] at h
    rw [cycleLoopC]
    by_cases hl : last ≠ 1
    · rw [if_pos hl] at h ⊢
      obtain ⟨h1, h2⟩ := cycleLoopC_spec r fuel _ _ out h
      simp only [List.length_append, List.length_singleton] at h1 h2
      refine ⟨?_, by omega⟩
      rw [times_tag]
      exact bind_ok (y := .ok out) (e := ⟨out.length - o.length, 0⟩) h1 (by simp; omega)
    · rw [if_neg hl] at h ⊢
      cases h
      exact ⟨by rw [Nat.sub_self]; rfl, le_refl _⟩

theorem rootzC_spec (w : K) (n : Nat) (hn : 1 ≤ n) (hw : orderOf w = n) (fuel : Nat) (hf : n ≤ fuel) :
    rootzC fuel w = .ok (powers w (n + 1), ⟨n - 1, 0⟩) := by
  have := (cycleLoopC_spec w fuel [1, w] w _ (rootz_ok w n hn hw fuel hf)).1
  rw [rootzC, this, powers_length]
  rfl

theorem fft1dC_fwd {n : Nat} (hg : Good n) (w : K) (hw : orderOf w = n) (p : Nat) (vals : List K) (hv : vals.length ≤ n) (fuel : Nat)
    (hf : n ≤ fuel) : ∃ out, fft1d fuel vals p w false = .ok out ∧
      fft1dC fuel vals p w false = .ok (out, ⟨(n - 1) + fftMuls n, 0⟩) := by
  have hn := hg.pos
  refine ⟨dft w n (pad (powers w (n + 1)) vals), ?_, ?_⟩
  · rw [fft1d, rootz_ok w n hn hw fuel hf]
    simp only [bind, Except.bind, Bool.false_eq_true, if_false]
    rw [powers_dropLast]
    exact fft_ok hg w _ hw (pad_length w n vals hv)
  · rw [fft1dC, rootzC_spec w n hn hw fuel hf]
    refine bind_ok (c := ⟨n - 1, 0⟩) (a := powers w (n + 1)) (d := ⟨fftMuls n, 0⟩) (y := .ok _) (e := ⟨(n - 1) + fftMuls n, 0⟩) ?_ (by simp)
    simp only [Bool.false_eq_true, if_false]
    rw [powers_dropLast]
    exact fftC_spec hg w _ hw (pad_length w n vals hv)

theorem timesMap_tag (c : K) (l : List K) : cMap (fun x => times x c) l = tag ⟨l.length, 0⟩ (.ok (l.map fun x => x * c)) := by
  rw [cMap_tag (fun x => times x c) (fun x => .ok (x * c)) 1 0 l (fun _ _ => rfl), pyMap_ok _ (fun x => x * c) l (fun _ _ => rfl)]
  simp

theorem fft1dC_inv {n : Nat} (hg : Good n) (w : K) (hw : orderOf w = n) (p : Nat) (vals : List K)
    (hv : vals.length ≤ n) (fuel : Nat) (hf : n ≤ fuel) : ∃ out, fft1d fuel vals p w true = .ok out ∧
      fft1dC fuel vals p w true = .ok (out, ⟨(n - 1) + fftMuls n + n, 0⟩) := by
  have hn := hg.pos
  have hwn : w ^ n = 1 := by rw [← hw, pow_orderOf_eq_one]
  have e : fft (pad (powers w (n + 1)) vals) (powers w (n + 1)).tail.reverse =
      .ok (dft w⁻¹ n (pad (powers w (n + 1)) vals)) := by
    rw [powers_reverse w n hwn]; exact fft_ok hg _ _ (order_inv hw) (pad_length w n vals hv)
  have eC : fftC (pad (powers w (n + 1)) vals) (powers w (n + 1)).tail.reverse =
      .ok (dft w⁻¹ n (pad (powers w (n + 1)) vals), ⟨fftMuls n, 0⟩) := by
    rw [powers_reverse w n hwn]; exact fftC_spec hg _ _ (order_inv hw) (pad_length w n vals hv)
  refine ⟨(dft w⁻¹ n (pad (powers w (n + 1)) vals)).map fun x => x * (((pad (powers w (n + 1)) vals).length ^ (p - 2) % p : Nat) : K),
    ?_, ?_⟩
  · rw [fft1d, rootz_ok w n hn hw fuel hf]
    simp only [bind, Except.bind, if_true, e]
  · rw [fft1dC, rootzC_spec w n hn hw fuel hf]
    refine bind_ok (c := ⟨n - 1, 0⟩) (a := powers w (n + 1)) (d := ⟨fftMuls n + n, 0⟩) (y := .ok _)
      (e := ⟨(n - 1) + fftMuls n + n, 0⟩) ?_ (by simp; omega)
    simp only [if_true]
    rw [eC]
    refine bind_ok (c := ⟨fftMuls n, 0⟩) (a := dft w⁻¹ n (pad (powers w (n + 1)) vals)) (d := ⟨n, 0⟩) ?_ (by simp)
    rw [timesMap_tag]; simp

theorem mulPolysC_spec {n : Nat} (hg : Good n) (w : K) (hw : orderOf w = n) (a b : List K) (ha : a.length ≤ n) (hb : b.length ≤ n)
    (fuel : Nat) (hf : n ≤ fuel) : ∃ out, mulPolys fuel a b w = .ok out ∧
      mulPolysC fuel a b w = .ok (out, ⟨(n - 1) + 3 * fftMuls n + n, 0⟩) := by
  have hn := hg.pos
  have hwn : w ^ n = 1 := by rw [← hw, pow_orderOf_eq_one]
  set A := pad (powers w (n + 1)) a with hA
  set B := pad (powers w (n + 1)) b with hB
  have lA : A.length = n := pad_length w n a ha
  have lB : B.length = n := pad_length w n b hb
  set P := ((dft w n A).zip (dft w n B)).map fun v => v.1 * v.2 with hP
  have lP : P.length = n := by simp [hP]
  refine ⟨dft w⁻¹ n P, ?_, ?_⟩
  · rw [mulPolys, rootz_ok w n hn hw fuel hf]
    simp only [bind, Except.bind, powers_dropLast, ← hA, ← hB, fft_ok hg w A hw lA, fft_ok hg w B hw lB, ← hP]
    rw [powers_reverse w n hwn]
    exact fft_ok hg _ P (order_inv hw) lP
  · rw [mulPolysC, rootzC_spec w n hn hw fuel hf]
    refine bind_ok (c := ⟨n - 1, 0⟩) (a := powers w (n + 1)) (d := ⟨3 * fftMuls n + n, 0⟩) (y := .ok _)
      (e := ⟨(n - 1) + 3 * fftMuls n + n, 0⟩) ?_ (by simp; omega)
    simp only [powers_dropLast, ← hA, ← hB]
    rw [fftC_spec hg w A hw lA]
    refine bind_ok (c := ⟨fftMuls n, 0⟩) (a := dft w n A) (d := ⟨2 * fftMuls n + n, 0⟩) ?_ (by simp; omega)
    rw [fftC_spec hg w B hw lB]
    refine bind_ok (c := ⟨fftMuls n, 0⟩) (a := dft w n B) (d := ⟨fftMuls n + n, 0⟩) ?_ (by simp; omega)
    rw [cMap_tag (fun v : K × K => times v.1 v.2) (fun v : K × K => .ok (v.1 * v.2)) 1 0 _ (fun _ _ => rfl),
      pyMap_ok _ (fun v : K × K => v.1 * v.2) _ (fun _ _ => rfl), ← hP]
    refine bind_ok (d := ⟨fftMuls n, 0⟩) ?_ (by simp; omega)
    rw [powers_reverse w n hwn]
    exact fftC_spec hg _ P (order_inv hw) lP

end Verif.OpCount
