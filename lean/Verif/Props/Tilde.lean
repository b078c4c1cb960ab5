import Verif.Props.Compose
/-!
# C94: the tilde expansion and the first constraints, exactly

`tilde_expansion` should give `X_(tau,N) * Z_tau(N(X_loc)) + E_tau(N(X_loc))`.  `X_loc` is the first of the `n` variables.
-/

namespace Verif.Props
open Poly FF Spec Apr Mv
open MvPolynomial (aeval X C monomial)

section
variable {F : Type} [Field F] [DecidableEq F]

/-- A dictionary in the first variable only. -/
theorem first_only {n : Nat} (hn : 0 < n) {d : Dict F} (hd : WF n d) {q : Polynomial F}
    (hq : toMv n d = Polynomial.aeval (X ⟨0, hn⟩) q) : ∀ e ∈ d, e.1 = e.1.getD 0 0 :: List.replicate (n - 1) 0 ∧ q.coeff (e.1.getD 0 0) = e.2 := by
  intro e he
  have hlen := hd.len e he
  have h1 := coeff_toMv hd.good hlen
  rw [get_eq_of_mem hd.good he, hq, Polynomial.aeval_eq_sum_range, MvPolynomial.coeff_sum] at h1
  have hne := hd.nz e he
  have h2 : ∃ i ∈ Finset.range (q.natDegree + 1), tupF n e.1 = Finsupp.single ⟨0, hn⟩ i := by
    by_contra hcon
    push Not at hcon
    rw [Finset.sum_eq_zero] at h1
    · exact hne h1.symm
    · intro i hi
      rw [MvPolynomial.coeff_smul, MvPolynomial.coeff_X_pow, if_neg fun h => hcon i hi h.symm, smul_zero]
  obtain ⟨i, hi, ht⟩ := h2
  have hshape : e.1 = i :: List.replicate (n - 1) 0 := by
    refine tupF_inj hlen (by simp; omega) (ht.trans ?_)
    ext ⟨j, hj⟩
    cases j with
    | zero => simp [tupF]
    | succ j =>
      have : j < n - 1 := by omega
      simp [tupF, this]
  have hget : e.1.getD 0 0 = i := by rw [hshape]; rfl
  refine ⟨by rw [hget]; exact hshape, ?_⟩
  rw [hget, ← h1, Finset.sum_eq_single i]
  · rw [MvPolynomial.coeff_smul, MvPolynomial.coeff_X_pow, if_pos ht.symm]; simp
  · intro j _ hj
    rw [MvPolynomial.coeff_smul, MvPolynomial.coeff_X_pow, if_neg, smul_zero]
    rw [ht]
    intro h
    exact hj (Finsupp.single_injective _ h)
  · intro h; exact absurd hi h

/-- Its length is the number of non-zero coefficients. -/
theorem first_only_length {n : Nat} (hn : 0 < n) {d : Dict F} (hd : WF n d) {q : Polynomial F}
    (hq : toMv n d = Polynomial.aeval (X ⟨0, hn⟩) q) : d.length = q.support.card := by
  have hf := first_only hn hd hq
  have hnod : (d.map fun e => e.1.getD 0 0).Nodup := by
    have hk : (d.map fun e => e.1).Nodup := hd.good.nodup
    refine (List.nodup_map_iff_inj_on (List.Nodup.of_map _ hk)).2 fun a ha b hb h => ?_
    have : a.1 = b.1 := by rw [(hf a ha).1, (hf b hb).1, h]
    exact List.inj_on_of_nodup_map hk ha hb this
  rw [← List.length_map (fun e : Tup × F => e.1.getD 0 0), ← List.toFinset_card_of_nodup hnod]
  congr 1
  ext i
  simp only [List.mem_toFinset, List.mem_map, Polynomial.mem_support_iff]
  constructor
  · rintro ⟨e, he, rfl⟩
    rw [(hf e he).2]; exact hd.nz e he
  · intro hi
    have hlen : (i :: List.replicate (n - 1) 0).length = n := by simp; omega
    have h1 := coeff_toMv hd.good hlen
    have hs : tupF n (i :: List.replicate (n - 1) 0) = Finsupp.single ⟨0, hn⟩ i := by
      ext ⟨j, hj⟩
      cases j with
      | zero => simp [tupF]
      | succ j =>
        have : j < n - 1 := by omega
        simp [tupF, this]
    rw [hq, Polynomial.aeval_eq_sum_range, MvPolynomial.coeff_sum, hs, Finset.sum_eq_single i] at h1
    · rw [MvPolynomial.coeff_smul, MvPolynomial.coeff_X_pow, if_pos rfl] at h1
      have hm : (i :: List.replicate (n - 1) 0) ∈ keys d := by
        rw [mem_keys_iff hd, ← h1]; simpa using hi
      obtain ⟨e, he, h⟩ := List.mem_map.1 hm
      exact ⟨e, he, by rw [h]; rfl⟩
    · intro j _ hj
      rw [MvPolynomial.coeff_smul, MvPolynomial.coeff_X_pow, if_neg fun h => hj (Finsupp.single_injective _ h), smul_zero]
    · intro h
      rw [MvPolynomial.coeff_smul, Polynomial.coeff_eq_zero_of_natDegree_lt (by simpa using h), zero_smul]

/-- The row of a product whose left tuple is shorter, the right factor being in the first variable only. -/
theorem mulRow_short {n L : Nat} (hL : 0 < L) (hLn : L < n) {t : Tup} (ht : t.length = L) (c : F) : ∀ (b acc : Dict F),
    (∀ e ∈ b, e.1 = e.1.getD 0 0 :: List.replicate (n - 1) 0) → Good n acc →
    Good n (mulRow t c b acc) ∧ toMv n (mulRow t c b acc) = toMv n acc + monomial (tupF n t) c *
      aeval (fun _ : Fin n => X ⟨0, by omega⟩ * X ⟨L, hLn⟩) (toMv n b)
  | [], acc, _, h => ⟨h, by simp [mulRow]⟩
  | (u, a) :: b, acc, hb, h => by
    obtain hu := hb (u, a) (by simp)
    simp only at hu
    generalize u.getD 0 0 = i at hu
    subst hu
    have hlen : (addPowerTuples t (i :: List.replicate (n - 1) 0)).length = n := by
      simp [addPowerTuples, ht, show min L (n - 1 + 1) = L by omega]; omega
    obtain ⟨h1, h2⟩ := mulRow_short hL hLn ht c b (upsert (addPowerTuples t (i :: List.replicate (n - 1) 0)) (c * a) acc)
      (fun e he => hb e (by simp [he])) (good_upsert hlen _ h)
    refine ⟨h1, ?_⟩
    have e' : mulRow t c ((i :: List.replicate (n - 1) 0, a) :: b) acc =
      mulRow t c b (upsert (addPowerTuples t (i :: List.replicate (n - 1) 0)) (c * a) acc) := rfl
    have hs : tupF n (i :: List.replicate (n - 1) 0) = Finsupp.single ⟨0, by omega⟩ i := by
      ext ⟨j, hj⟩
      cases j with
      | zero => simp [tupF]
      | succ j =>
        have : j < n - 1 := by omega
        simp [tupF, this]
    have hsum : tupF n (addPowerTuples t (i :: List.replicate (n - 1) 0)) =
        tupF n t + (Finsupp.single ⟨0, by omega⟩ i + Finsupp.single ⟨L, hLn⟩ i) := by
      have hget : ∀ j < n, (i :: List.replicate (n - 1) 0).getD j 0 = if j = 0 then i else 0 := by
        intro j hj
        cases j with
        | zero => simp
        | succ j =>
          have : j < n - 1 := by omega
          simp [this]
      have hb' : (i :: List.replicate (n - 1) 0).length = n := by simp; omega
      generalize (i :: List.replicate (n - 1) 0) = w at hget hb'
      ext ⟨j, hj⟩
      simp only [tupF, addPowerTuples, ht, hb', Nat.min_eq_left hLn.le, if_true, Finsupp.equivFunOnFinite_symm_apply_apply,
        Finsupp.add_apply, Finsupp.single_apply, Fin.mk.injEq]
      by_cases hjL : j < L
      · rw [List.getD_append _ _ _ _ (by simpa using hjL)]
        have : ((List.range L).map fun k => t.getD k 0 + w.getD k 0).getD j 0 = t.getD j 0 + w.getD j 0 := by simp [hjL]
        rw [this, hget j hj, if_neg (show ¬ L = j by omega), add_zero]
        simp [eq_comm]
      · rw [List.getD_append_right _ _ _ _ (by simp; omega)]
        have : ((List.range (n - L)).map fun k => w.getD k 0).getD (j - L) 0 = w.getD (j - L) 0 := by
          simp [show j - L < n - L by omega]
        simp only [List.length_map, List.length_range]
        rw [this, hget _ (by omega), List.getD_eq_default _ _ (by omega)]
        simp only [show (0 = j) = False by simp; omega, if_false, zero_add]
        congr 1
        simp; omega
    rw [e', h2, toMv_upsert, toMv_cons, map_add, hsum, hs, MvPolynomial.aeval_monomial, Finsupp.prod_single_index (by simp),
      MvPolynomial.algebraMap_eq, mul_add]
    have hmon : monomial (tupF n t + (Finsupp.single (⟨0, by omega⟩ : Fin n) i + Finsupp.single ⟨L, hLn⟩ i)) (c * a) =
        monomial (tupF n t) c * (C a * (X ⟨0, by omega⟩ * X ⟨L, hLn⟩) ^ i) := by
      rw [mul_pow, MvPolynomial.X_pow_eq_monomial, MvPolynomial.X_pow_eq_monomial, MvPolynomial.monomial_mul,
        MvPolynomial.C_mul_monomial, MvPolynomial.monomial_mul]
      simp
    rw [hmon]; ring

theorem tupF_first {n : Nat} (hn : 0 < n) (i : Nat) : tupF n (i :: List.replicate (n - 1) 0) = Finsupp.single ⟨0, hn⟩ i := by
  ext ⟨j, hj⟩
  cases j with
  | zero => simp [tupF]
  | succ j =>
    have : j < n - 1 := by omega
    simp [tupF, this]

theorem xLoc_spec {n : Nat} (hn : 0 < n) : WF n (xLoc n : Dict F) ∧ toMv n (xLoc n : Dict F) = X ⟨0, hn⟩ := by
  refine ⟨wf_ofDict ⟨by simp [keys], by simp [keys]; omega⟩, ?_⟩
  rw [xLoc, toMv_ofDict]
  simp only [toMv, List.map_cons, List.map_nil, List.sum_cons, List.sum_nil, add_zero, tupF_first hn]
  rfl

/-- `f(N(X_loc))` -/
theorem compose_spec {n : Nat} (hn : 0 < n) (nb g : List F) : WF n (callMv n g (callMv n nb (xLoc n))) ∧
    toMv n (callMv n g (callMv n nb (xLoc n))) = Polynomial.aeval (X ⟨0, hn⟩) ((toPoly g).comp (toPoly nb)) := by
  obtain ⟨x1, x2⟩ := xLoc_spec (F := F) hn
  obtain ⟨n1, n2⟩ := C110_call n nb (xLoc n) x1
  obtain ⟨g1, g2⟩ := C110_call n g _ n1
  exact ⟨g1, by rw [g2, n2, x2, Polynomial.aeval_comp]⟩

/-- **C94** (tilde expansion), exactly.  With `w` the number of non-zero coefficients of the neighbour and `L = max w tau + 1`, the
entry for the register `tau` is `X_tau * Z_tau(N)(X_loc * X_L) + E_tau(N(X_loc))`, the variables being counted from `X_0 = X_loc`.
MISSING: that it is `X_(tau,N) * Z_tau(N(X_loc)) + E_tau(N(X_loc))` (`C94_tilde_general_refuted`). -/
theorem C94_tilde_partial (n : Nat) (Zs Es : List (List F)) (nb : List F) (idx : List Nat)
    (hidx : ∀ tau ∈ idx, tau < Zs.length ∧ tau < Es.length ∧ tau + 1 < n) (hnb : (toPoly nb).support.card + 1 < n) :
    ∃ r, tilde n Zs Es idx nb = .ok r ∧ r.length = idx.length ∧ ∀ j tau : Nat, idx[j]? = some tau →
      ∃ (d : Dict F) (Z E : List F) (h0 : 0 < n) (ht : tau < n) (hL : max (toPoly nb).support.card tau + 1 < n),
        r[j]? = some d ∧ Zs[tau]? = some Z ∧ Es[tau]? = some E ∧ WF n d ∧
        toMv n d = X ⟨tau, ht⟩ * Polynomial.aeval (X ⟨0, h0⟩ * X ⟨max (toPoly nb).support.card tau + 1, hL⟩)
          ((toPoly Z).comp (toPoly nb)) + Polynomial.aeval (X ⟨0, h0⟩) ((toPoly E).comp (toPoly nb)) := by
  have hn : 0 < n := by omega
  obtain ⟨x1, x2⟩ := xLoc_spec (F := F) hn
  obtain ⟨n1, n2⟩ := C110_call n nb (xLoc n) x1
  rw [x2] at n2
  have hw := first_only_length hn n1 n2
  set w := (toPoly nb).support.card with hwdef
  have key : ∀ tau ∈ idx, ∃ d : Dict F, ((do
      let z ← pyIdx (Zs.map fun Z => callMv n Z (callMv n nb (xLoc n))) tau
      let e ← pyIdx (Es.map fun E => callMv n E (callMv n nb (xLoc n))) tau
      .ok (Mv.add (Mv.mul (Mv.ofDict [(List.replicate tau 0 ++ [1] ++
        List.replicate ((callMv n nb (xLoc n)).length - tau) 0, 1)]) z) e)) : Py (Dict F)) = .ok d ∧
      ∃ (Z E : List F) (h0 : 0 < n) (ht : tau < n) (hL : max w tau + 1 < n), Zs[tau]? = some Z ∧ Es[tau]? = some E ∧ WF n d ∧
        toMv n d = X ⟨tau, ht⟩ * Polynomial.aeval (X ⟨0, h0⟩ * X ⟨max w tau + 1, hL⟩) ((toPoly Z).comp (toPoly nb)) +
          Polynomial.aeval (X ⟨0, h0⟩) ((toPoly E).comp (toPoly nb)) := by
    intro tau h
    obtain ⟨h1, h2, h3⟩ := hidx tau h
    refine ⟨_, (Air.bind_iff _ _ _).2 ⟨callMv n Zs[tau] (callMv n nb (xLoc n)), (Air.pyIdx_iff _ _ _).2 (by simp [h1]),
      (Air.bind_iff _ _ _).2 ⟨callMv n Es[tau] (callMv n nb (xLoc n)), (Air.pyIdx_iff _ _ _).2 (by simp [h2]), rfl⟩⟩,
      Zs[tau], Es[tau], hn, by omega, by omega, List.getElem?_eq_getElem h1, List.getElem?_eq_getElem h2, ?_⟩
    obtain ⟨z1, z2⟩ := compose_spec hn nb Zs[tau]
    obtain ⟨e1, e2⟩ := compose_spec hn nb Es[tau]
    rw [hw]
    have hL : max w tau + 1 < n := by omega
    have hlen : (List.replicate tau 0 ++ [1] ++ List.replicate (w - tau) 0).length = max w tau + 1 := by simp; omega
    have htF : tupF n (List.replicate tau 0 ++ [1] ++ List.replicate (w - tau) 0) = Finsupp.single ⟨tau, by omega⟩ 1 := by
      ext ⟨j, hj⟩
      simp only [tupF, Finsupp.equivFunOnFinite_symm_apply_apply, Finsupp.single_apply, Fin.mk.injEq]
      rcases lt_trichotomy j tau with h | h | h
      · rw [List.append_assoc, List.getD_append _ _ _ _ (by simpa using h), if_neg (by omega)]
        simp [h]
      · subst h
        rw [List.append_assoc, List.getD_append_right _ _ _ _ (by simp)]
        simp
      · rw [List.getD_append_right _ _ _ _ (by simp; omega), if_neg (by omega)]
        simp only [List.getD_eq_getElem?_getD, List.getElem?_replicate]
        split <;> rfl
    have hm : WF n (Mv.mul (Mv.ofDict [(List.replicate tau 0 ++ [1] ++ List.replicate (w - tau) 0, (1 : F))])
          (callMv n Zs[tau] (callMv n nb (xLoc n)))) ∧
        toMv n (Mv.mul (Mv.ofDict [(List.replicate tau 0 ++ [1] ++ List.replicate (w - tau) 0, (1 : F))])
          (callMv n Zs[tau] (callMv n nb (xLoc n)))) = X ⟨tau, by omega⟩ *
          Polynomial.aeval (X ⟨0, hn⟩ * X ⟨max w tau + 1, hL⟩) ((toPoly Zs[tau]).comp (toPoly nb)) := by
      have hof : Mv.ofDict [(List.replicate tau 0 ++ [1] ++ List.replicate (w - tau) 0, (1 : F))] =
          [(List.replicate tau 0 ++ [1] ++ List.replicate (w - tau) 0, (1 : F))] := by
        simp [Mv.ofDict, Mv.removeZero, Mv.sortKeys]
      rw [hof]
      generalize callMv n Zs[tau] (callMv n nb (xLoc n)) = z at z1 z2
      obtain ⟨r1, r2⟩ := mulRow_short (F := F) (by omega) hL hlen 1 z [] (fun e he => (first_only hn z1 z2 e he).1)
        ⟨by simp [keys], by simp [keys]⟩
      have himg : aeval (fun _ : Fin n => (X ⟨0, hn⟩ * X ⟨max w tau + 1, hL⟩ : MvPolynomial (Fin n) F)) (toMv n z) =
          Polynomial.aeval (X ⟨0, hn⟩ * X ⟨max w tau + 1, hL⟩) ((toPoly Zs[tau]).comp (toPoly nb)) := by
        rw [z2, ← Polynomial.aeval_algHom_apply]
        simp
      rw [himg, htF, toMv_nil, zero_add] at r2
      cases z with
      | nil =>
        refine ⟨by simp [Mv.mul, Mv.isZero]; exact wf_nil n, ?_⟩
        refine Eq.trans ?_ r2
        simp [Mv.mul, Mv.isZero, mulRow]
      | cons a z =>
        have : Mv.mul [(List.replicate tau 0 ++ [1] ++ List.replicate (w - tau) 0, (1 : F))] (a :: z) =
            Mv.ofDict (mulRow (List.replicate tau 0 ++ [1] ++ List.replicate (w - tau) 0) 1 (a :: z) []) := by
          simp [Mv.mul, Mv.isZero]
        rw [this]
        exact ⟨wf_ofDict r1, by rw [toMv_ofDict, r2]; rfl⟩
    exact ⟨wf_add hm.1.good e1.good, by rw [toMv_add hm.1.good e1.good, hm.2, e2]⟩
  choose! v hv using key
  refine ⟨idx.map v, PolyUtils.pyMap_ok _ v _ fun t ht => (hv t ht).1, by simp, fun j tau hj => ?_⟩
  obtain ⟨-, Z, E, h0, ht, hL, e1, e2, e3, e4⟩ := hv tau (List.mem_of_getElem? hj)
  exact ⟨v tau, Z, E, h0, ht, hL, by simp [hj], e1, e2, e3, e4⟩

/-- **C94** (tilde expansion) fails whenever `Z_tau` and the neighbour are not constant: the entry is not
`X_i * Z_tau(N(X_loc)) + E_tau(N(X_loc))` for any variable `X_i` at all. -/
theorem C94_tilde_general_refuted (n : Nat) (Zs Es : List (List F)) (nb : List F) (idx : List Nat)
    (hidx : ∀ tau ∈ idx, tau < Zs.length ∧ tau < Es.length ∧ tau + 1 < n) (hnb : (toPoly nb).support.card + 1 < n)
    (hN : 1 ≤ (toPoly nb).natDegree) (hZ : ∀ Z ∈ Zs, 1 ≤ (toPoly Z).natDegree) {r : List (Dict F)}
    (hr : tilde n Zs Es idx nb = .ok r) (j tau : Nat) (hj : idx[j]? = some tau) :
    ∃ (d : Dict F) (Z E : List F) (h0 : 0 < n), r[j]? = some d ∧ Zs[tau]? = some Z ∧ Es[tau]? = some E ∧ WF n d ∧
      ∀ i : Fin n, toMv n d ≠ X i * Polynomial.aeval (X ⟨0, h0⟩) ((toPoly Z).comp (toPoly nb)) +
        Polynomial.aeval (X ⟨0, h0⟩) ((toPoly E).comp (toPoly nb)) := by
  obtain ⟨r', h1, -, h3⟩ := C94_tilde_partial n Zs Es nb idx hidx hnb
  rw [hr] at h1
  cases h1
  obtain ⟨d, Z, E, h0, ht, hL, e1, e2, e3, e4, e5⟩ := h3 j tau hj
  refine ⟨d, Z, E, h0, e1, e2, e3, e4, fun i hi => ?_⟩
  rw [e5, add_left_inj] at hi
  have hq : 1 ≤ ((toPoly Z).comp (toPoly nb)).natDegree := by
    rw [Polynomial.natDegree_comp]
    exact Nat.mul_pos (hZ Z (List.mem_of_getElem? e2)) hN
  generalize (toPoly Z).comp (toPoly nb) = q at hi hq
  have := congrArg (aeval fun _ : Fin n => (Polynomial.X : Polynomial F)) hi
  rw [map_mul, map_mul, ← Polynomial.aeval_algHom_apply, ← Polynomial.aeval_algHom_apply] at this
  simp only [MvPolynomial.aeval_X, map_mul] at this
  have h2 := mul_left_cancel₀ Polynomial.X_ne_zero this
  have h3 := congrArg Polynomial.natDegree h2
  rw [← pow_two, ← Polynomial.comp_eq_aeval, ← Polynomial.comp_eq_aeval, Polynomial.natDegree_comp, Polynomial.natDegree_comp] at h3
  simp at h3
  omega

end

section
variable {p : Nat} [hp : Fact p.Prime] {f : List (Zp p)} [hf : IsModulus f]
variable (factorint : Nat → List Nat) (draws : Nat → List (Zp p)) (inner fuel : Nat)
variable (division : Dict (Fq f) → List (Fq f) → Py (Dict (Fq f))) (parse : List (Fq f) → Py (Dict (Fq f)))
variable {n width : Nat} {inp : List (Fq f)} {steps : Int} {polys : List (Dict (Fq f))} (hw : ∀ g ∈ polys, WF n g)
  {air : Air.AIR (Fq f)} (hair : Air.mkAIR n width inp steps polys = .ok air) (hdr : ∀ i, (draws i).length = width)

include hw hair hdr in
/-- **C94** (first constraints), exactly.  The first constraint of every transition polynomial `P` is the quotient sympy gave for
`X_loc (X_loc - 1)` and the vanishing polynomial of `H0`, times `P` at the tilde expansions of the registers for the neighbours
`x` and `g x`.  MISSING: that the expansions are the required ones (`C94_tilde_general_refuted`). -/
theorem C94_first_constraint_partial {m k : Nat} {A : APR (Zp p) (Fq f)}
    (hA : apr factorint draws inner fuel division parse m air k = .ok A) :
    ∃ ZH0 t0 a b, ReedSolomon.affineVanishing (ReedSolomon.zpIter p (Zp.ofInt (p := p))) (castHom f) basisH0 0 = .ok ZH0 ∧
      division (Mv.mul (xLoc (1 + 3 * width)) (Mv.sub (xLoc (1 + 3 * width)) (Mv.ofElt (1 + 3 * width) 1))) ZH0 = .ok t0 ∧
      tilde (1 + 3 * width) A.Zs A.Es (List.range width) (ctor [0, 1]) = .ok a ∧
      tilde (1 + 3 * width) A.Zs A.Es (List.range width) (ctor [0, castHom f gen]) = .ok b ∧
      (WF (1 + 3 * width) t0 → ∀ i P, air.polys[i]? = some P → ∃ Phi, A.Phi[2 * i]? = some Phi ∧ WF (1 + 3 * width) Phi ∧
        toMv (1 + 3 * width) Phi = toMv (1 + 3 * width) t0 *
          aeval (fun j : Fin (2 * width) => toMv (1 + 3 * width) ((a ++ b).getD j [])) (toMv (2 * width) P.dict)) := by
  obtain ⟨z, -, hF⟩ := apr_facts factorint draws inner fuel division parse hw hair hdr hA
  obtain ⟨ZH0, t0, h1, h2, h3⟩ := apr_first factorint draws inner fuel division parse hw hair hdr hA
  obtain ⟨w1, aw, -, -, -, apl, -⟩ := air_facts hw hair
  obtain ⟨Z, hZ, -, -⟩ := hF.Zs_eq
  obtain ⟨E, hE, -, -⟩ := hF.Es_eq
  have hidx : ∀ tau ∈ List.range width, tau < A.Zs.length ∧ tau < A.Es.length ∧ tau + 1 < 1 + 3 * width := by
    intro tau h
    have := List.mem_range.1 h
    rw [hZ, hE]; simp; omega
  have hcard : ∀ x y : Fq f, (toPoly (ctor [x, y])).support.card + 1 < 1 + 3 * width := by
    intro x y
    have : (toPoly (ctor [x, y])).support ⊆ Finset.range 2 := by
      intro i hi
      rw [toPoly_ctor, Polynomial.mem_support_iff] at hi
      by_contra h
      simp only [Finset.mem_range, not_lt] at h
      exact hi (by rw [coeff_toPoly, List.getD_eq_default _ _ (show [x, y].length ≤ i by simpa using h)])
    have := Finset.card_le_card this
    simp at this
    omega
  obtain ⟨a, ha, la, wa⟩ := C94_tilde_partial (1 + 3 * width) A.Zs A.Es (ctor [0, 1]) (List.range width) hidx (hcard _ _)
  obtain ⟨b, hb, lb, wb⟩ := C94_tilde_partial (1 + 3 * width) A.Zs A.Es (ctor [0, castHom f gen]) (List.range width) hidx (hcard _ _)
  refine ⟨ZH0, t0, a, b, h1, h2, ha, hb, fun ht i P hP => ?_⟩
  have hwf : ∀ v ∈ a ++ b, WF (1 + 3 * width) v := by
    intro v hv
    rcases List.mem_append.1 hv with hv | hv
    · obtain ⟨j, hj, rfl⟩ := List.getElem_of_mem hv
      obtain ⟨d, _, _, _, _, _, e1, -, -, e2, -⟩ := wa j j (by rw [la, List.length_range] at hj; simp [hj])
      rw [List.getElem?_eq_getElem hj] at e1
      cases e1
      exact e2
    · obtain ⟨j, hj, rfl⟩ := List.getElem_of_mem hv
      obtain ⟨d, _, _, _, _, _, e1, -, -, e2, -⟩ := wb j j (by rw [lb, List.length_range] at hj; simp [hj])
      rw [List.getElem?_eq_getElem hj] at e1
      cases e1
      exact e2
  obtain ⟨a', b', v, ha', hb', hv, hPhi⟩ := h3 i P hP
  rw [ha] at ha'
  rw [hb] at hb'
  cases ha'
  cases hb'
  obtain ⟨v', v1, v2, v3⟩ := C110_call_multi (2 * width) (1 + 3 * width) P.dict (by rw [← aw]; exact P.wf_dict) (a ++ b)
    (by simp at la lb; simp [la, lb]; omega) hwf
  rw [hv] at v1
  cases v1
  obtain ⟨m1, m2⟩ := mul_spec ht.good v2.good
  exact ⟨_, hPhi, m1, by rw [m2, v3]⟩

include hw hair hdr in
/-- **C94** fails altogether when sympy's quotient is 0, as it is of a polynomial in `X_loc` by one in another variable: then the
first constraints, too, are satisfied by every assignment. -/
theorem C94_first_constraints_refuted {m k : Nat} {A : APR (Zp p) (Fq f)}
    (hdiv : ∀ Z t0, Canon Z → 2 ≤ Z.length →
      division (Mv.mul (xLoc (1 + 3 * width)) (Mv.sub (xLoc (1 + 3 * width)) (Mv.ofElt (1 + 3 * width) 1))) Z = .ok t0 → t0 = []) (hA : apr factorint draws inner fuel division parse m air k = .ok A)
    (i : Nat) (hi : i < 2 * width) : ∃ Phi, A.Phi[i]? = some Phi ∧ ∀ vals : List (Fq f), vals.length = 1 + A.nbrs.length →
      Mv.call (1 + A.nbrs.length) Phi vals = .ok 0 := by
  obtain ⟨z, -, hF⟩ := apr_facts factorint draws inner fuel division parse hw hair hdr hA
  obtain ⟨ZH0, t0, h1, h2, h3⟩ := apr_first factorint draws inner fuel division parse hw hair hdr hA
  obtain ⟨w1, aw, -, -, -, apl, -⟩ := air_facts hw hair
  obtain ⟨Z, -, hZ, -, z1, z2, z3, -⟩ := C23_affine_vanishing_partial p (castHom f : CPoly (Zp p) → Fq f) basisH0 0
  rw [h1] at hZ
  cases hZ
  have hlen : 2 ≤ ZH0.length := by
    rw [natDegree_toPoly z1] at z3
    have : 1 < ReedSolomon.affineLen p 1 (basisH0 (p := p)) := by
      simpa [ReedSolomon.affineLen, basisH0] using Nat.one_lt_pow (n := 7) (by omega) hp.out.one_lt
    omega
  have hnil : A.Phi[i]? = some [] := by
    rcases Nat.even_or_odd' i with ⟨j, rfl | rfl⟩
    · obtain ⟨a, b, v, -, -, -, h⟩ := h3 j (air.polys[j]'(by omega)) (List.getElem?_eq_getElem _)
      rw [h, hdiv _ _ z1 hlen h2]
      simp [Mv.mul, Mv.isZero]
    · exact hF.phi_odd j (by omega)
  exact ⟨[], hnil, fun vals hv => by simp [Mv.call, hv, pyAssert, Mv.callLoop, bind, Except.bind]⟩
end

/-- The expansion of one register for the neighbour `x` over Z/5, with `Z = x - 1` and `E = 2`: `X_0 (X_0 X_2 - 1) + 2`. -/
example : tilde 4 [[4, 1]] [[2]] [0] ([0, 1] : List (Zp 5)) = .ok [[([0, 0, 0, 0], 2), ([1, 0, 0, 0], 4), ([2, 0, 1, 0], 1)]] := by
  decide +kernel

/-- The same with two registers and the neighbour `x + 3`. This meets the hypotheses of `C94_tilde_general_refuted`. -/
example : ∃ r, tilde 7 [[4, 1], [4, 1]] [[2], [2, 1]] [0, 1] ([3, 1] : List (Zp 5)) = .ok r ∧ r.length = 2 := by
  obtain ⟨r, h1, h2, -⟩ := C94_tilde_partial 7 [[4, 1], [4, 1]] [[2], [2, 1]] ([3, 1] : List (Zp 5)) [0, 1] (by simp) (by
    have : (toPoly ([3, 1] : List (Zp 5))).support ⊆ Finset.range 2 := by
      intro i hi
      rw [Polynomial.mem_support_iff, coeff_toPoly] at hi
      by_contra h
      simp only [Finset.mem_range, not_lt] at h
      exact hi (List.getD_eq_default _ _ (by simpa using h))
    have := Finset.card_le_card this
    simp at this
    omega)
  exact ⟨r, h1, by simpa using h2⟩

/-- The Fibonacci program over GF(8), with a division that always gives 0. -/
example (k : Nat) : ∃ A : APR (Zp 2) (Fq gf8), A.Phi.length = 4 ∧ ∀ i < 4, ∃ Phi, A.Phi[i]? = some Phi ∧
    ∀ vals : List (Fq gf8), vals.length = 1 + A.nbrs.length → Mv.call (1 + A.nbrs.length) Phi vals = .ok 0 := by
  obtain ⟨air, h⟩ := fibR_air (Fq gf8) 0 1
  obtain ⟨Z, -, hZ, -⟩ := C23_affine_vanishing_partial 2 (castHom gf8 : CPoly (Zp 2) → Fq gf8) basisH0 0
  obtain ⟨A, hA⟩ := (C89_constructor (fun _ => [3]) (fun _ => [1, 1]) 1 1 (fun _ _ => .ok []) (fun _ => .ok []) (wf_fibR _) h
    (fun _ => rfl) 3 k).1.2 ⟨⟨[1, 1, 1], by decide +kernel⟩, Z, _, hZ, rfl⟩
  exact ⟨A, ((C89_constructor _ _ _ _ _ _ (wf_fibR _) h (fun _ => rfl) 3 k).2 A hA).2.2.2.2.1, fun i hi =>
    C94_first_constraints_refuted _ _ _ _ _ _ (wf_fibR _) h (fun _ => rfl) (by rintro _ _ _ _ ⟨⟩; rfl) hA i hi⟩

/-- The quotient in the other instance of that program is not 0, and the first constraints are what `C94_first_constraint_partial` says. -/
example (k : Nat) : ∃ (air : Air.AIR (Fq gf8)) (A : APR (Zp 2) (Fq gf8)) (t0 : Dict (Fq gf8)), A.Phi.length = 4 ∧ WF 7 t0 ∧ t0 ≠ [] ∧
    ∃ a b : List (Dict (Fq gf8)), ∀ i P, air.polys[i]? = some P → ∃ Phi, A.Phi[2 * i]? = some Phi ∧ WF 7 Phi ∧
      toMv 7 Phi = toMv 7 t0 * aeval (fun j : Fin 4 => toMv 7 ((a ++ b).getD j [])) (toMv 4 P.dict) := by
  obtain ⟨air, A, h1, h2⟩ := fib_apr k
  obtain ⟨ZH0, t0, a, b, -, h4, -, -, h7⟩ := C94_first_constraint_partial _ _ _ _ _ _ (wf_fibR _) h1 (fun _ => rfl) h2
  cases h4
  obtain ⟨x1, x2⟩ := xLoc_spec (F := Fq gf8) (n := 7) (by omega)
  obtain ⟨m1, m2⟩ := mul_spec x1.good (wf_sub x1.good (wf_ofElt 7 (1 : Fq gf8)).good).good
  refine ⟨air, A, _, ((C89_constructor _ _ _ _ _ _ (wf_fibR _) h1 (fun _ => rfl) 3 k).2 A h2).2.2.2.2.1, m1, ?_, a, b, h7 m1⟩
  intro h
  have h' : Mv.mul (xLoc 7) (Mv.sub (xLoc 7) (Mv.ofElt 7 (1 : Fq gf8))) = [] := h
  rw [h', toMv_sub x1.good (wf_ofElt 7 (1 : Fq gf8)).good, x2, toMv_ofElt] at m2
  have := congrArg (aeval fun _ : Fin 7 => (Polynomial.X : Polynomial (Fq gf8))) m2
  simp only [toMv_nil, map_zero, map_mul, map_sub, MvPolynomial.aeval_X, MvPolynomial.aeval_C] at this
  rcases mul_eq_zero.1 this.symm with h | h
  · exact Polynomial.X_ne_zero h
  · exact Polynomial.X_sub_C_ne_zero (1 : Fq gf8) (by simpa using h)
end Verif.Props
