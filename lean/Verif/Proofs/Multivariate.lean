import Verif.Spec.Multivariate
import Verif.Proofs.Memoize
import Verif.Proofs.Pow
import Mathlib.Algebra.MvPolynomial.Eval
import Mathlib.Algebra.MvPolynomial.Degrees
import Mathlib.Algebra.BigOperators.Fin
import Mathlib.Tactic.Ring
/-! # Multivariate polynomials -/

set_option linter.unusedSectionVars false

namespace Verif.Mv
open MvPolynomial

variable {R : Type _} [CommRing R] [DecidableEq R]

@[simp] theorem tupF_apply (n : Nat) (t : Tup) (i : Fin n) : tupF n t i = t.getD i 0 := rfl

theorem tupF_inj {n : Nat} {s t : Tup} (hs : s.length = n) (ht : t.length = n) (h : tupF n s = tupF n t) : s = t := by
  apply List.ext_getElem (by omega)
  intro i h1 h2
  have := congrArg (fun f : Fin n →₀ ℕ => f ⟨i, by omega⟩) h
  simpa [List.getElem?_eq_getElem h1, List.getElem?_eq_getElem h2] using this

theorem tupF_surj (n : Nat) (s : Fin n →₀ ℕ) : ∃ t : Tup, t.length = n ∧ tupF n t = s := by
  refine ⟨List.ofFn fun i => s i, by simp, ?_⟩
  ext i
  simp

@[simp] theorem toMv_nil (n : Nat) : toMv n ([] : Dict R) = 0 := rfl
@[simp] theorem toMv_cons (n : Nat) (e : Tup × R) (d : Dict R) : toMv n (e :: d) = monomial (tupF n e.1) e.2 + toMv n d := by
  simp [toMv]
theorem toMv_append (n : Nat) (d d' : Dict R) : toMv n (d ++ d') = toMv n d + toMv n d' := by simp [toMv]
theorem toMv_perm (n : Nat) {d d' : Dict R} (h : d.Perm d') : toMv n d = toMv n d' := (h.map _).sum_eq

theorem toMv_removeZero (n : Nat) : ∀ d : Dict R, toMv n (removeZero d) = toMv n d
  | [] => rfl
  | e :: d => by
    have ih := toMv_removeZero n d
    unfold removeZero at ih ⊢
    rw [List.filter_cons]
    by_cases h : e.2 = 0
    · rw [if_neg (by simpa using h), ih, toMv_cons, h, map_zero, zero_add]
    · rw [if_pos (by simpa using h), toMv_cons, ih, toMv_cons]

theorem toMv_ofDict (n : Nat) (d : Dict R) : toMv n (ofDict d) = toMv n d :=
  (toMv_perm n (List.perm_insertionSort _ _)).trans (toMv_removeZero n d)

/-- Distinct keys, all tuples of length `n`. -/
structure Good (n : Nat) (d : Dict R) : Prop where
  nodup : (keys d).Nodup
  len : ∀ t ∈ keys d, t.length = n

theorem WF.good {n : Nat} {d : Dict R} (h : WF n d) : Good n d := by
  refine ⟨?_, ?_⟩
  · rw [keys, List.nodup_iff_pairwise_ne, List.pairwise_map]
    exact h.sorted.imp fun h => ne_of_lt h
  · intro t ht
    obtain ⟨e, he, rfl⟩ := List.mem_map.1 ht
    exact h.len e he

theorem wf_ofDict {n : Nat} {d : Dict R} (h : Good n d) : WF n (ofDict d) := by
  have hp : (ofDict d).Perm (removeZero d) := List.perm_insertionSort _ _
  have hsub : (removeZero d).Sublist d := List.filter_sublist
  have hnd : (keys (ofDict d)).Nodup := ((hp.map Prod.fst).nodup_iff).2 (h.nodup.sublist (hsub.map Prod.fst))
  refine ⟨?_, ?_, ?_⟩
  · have h1 : (ofDict d).Pairwise fun a b : Tup × R => a.1 ≤ b.1 := by
      have : Std.Total (fun a b : Tup × R => a.1 ≤ b.1) := ⟨fun a b => le_total a.1 b.1⟩
      have : IsTrans (Tup × R) (fun a b : Tup × R => a.1 ≤ b.1) := ⟨fun a b c => le_trans⟩
      exact List.pairwise_insertionSort _ _
    have h2 : (ofDict d).Pairwise fun a b : Tup × R => a.1 ≠ b.1 := by
      rw [keys, List.nodup_iff_pairwise_ne, List.pairwise_map] at hnd
      exact hnd
    exact (h1.and h2).imp fun ⟨a, b⟩ => lt_of_le_of_ne a b
  · intro e he
    exact h.len e.1 (List.mem_map_of_mem (hsub.mem (hp.mem_iff.1 he)))
  · intro e he
    have := hp.mem_iff.1 he
    rw [removeZero, List.mem_filter] at this
    simpa using this.2

theorem get_nil (t : Tup) : get ([] : Dict R) t = 0 := rfl

theorem get_cons (e : Tup × R) (d : Dict R) (t : Tup) : get (e :: d) t = if t = e.1 then e.2 else get d t := by
  obtain ⟨t', c⟩ := e
  by_cases h : t = t'
  · subst h; rw [if_pos rfl, get, lookup_self]; rfl
  · rw [if_neg h, get, lookup_ne h]; rfl

theorem get_of_not_mem {d : Dict R} {t : Tup} (h : t ∉ keys d) : get d t = 0 := by
  induction d with
  | nil => rfl
  | cons e d ih =>
    rw [keys, List.map_cons, List.mem_cons, not_or] at h
    rw [get_cons, if_neg h.1]; exact ih h.2

theorem coeff_toMv {n : Nat} {d : Dict R} (h : Good n d) {t : Tup} (ht : t.length = n) : (toMv n d).coeff (tupF n t) = get d t := by
  induction d with
  | nil => simp [get_nil]
  | cons e d ih =>
    have hd : Good n d := ⟨(List.nodup_cons.1 h.nodup).2, fun t ht => h.len t (List.mem_cons_of_mem _ ht)⟩
    have he : e.1.length = n := h.len _ (by simp [keys])
    rw [toMv_cons, coeff_add, coeff_monomial, ih hd, get_cons]
    by_cases h1 : t = e.1
    · have : t ∉ keys d := h1 ▸ (List.nodup_cons.1 h.nodup).1
      rw [if_pos h1, if_pos (by rw [h1]), get_of_not_mem this, add_zero]
    · rw [if_neg h1, if_neg (fun h2 => h1 (tupF_inj ht he h2.symm)), zero_add]

theorem get_eq_of_mem {n : Nat} {d : Dict R} (h : Good n d) {e : Tup × R} (he : e ∈ d) : get d e.1 = e.2 := by
  induction d with
  | nil => simp at he
  | cons e' d ih =>
    have hd : Good n d := ⟨(List.nodup_cons.1 h.nodup).2, fun t ht => h.len t (List.mem_cons_of_mem _ ht)⟩
    rw [get_cons]
    rcases List.mem_cons.1 he with rfl | he
    · rw [if_pos rfl]
    · rw [if_neg, ih hd he]
      intro h1
      exact (List.nodup_cons.1 h.nodup).1 (h1 ▸ List.mem_map_of_mem he)

theorem mem_keys_iff {n : Nat} {d : Dict R} (h : WF n d) (t : Tup) : t ∈ keys d ↔ get d t ≠ 0 := by
  constructor
  · intro ht
    obtain ⟨e, he, rfl⟩ := List.mem_map.1 ht
    rw [get_eq_of_mem h.good he]; exact h.nz e he
  · intro hg
    by_contra ht
    exact hg (get_of_not_mem ht)

/-- A dictionary is determined by its values. -/
theorem dict_ext {n : Nat} {a b : Dict R} (ha : WF n a) (hb : WF n b) (h : ∀ t, get a t = get b t) : a = b := by
  have mem : ∀ {a b : Dict R}, WF n a → WF n b → (∀ t, get a t = get b t) → ∀ e, e ∈ a → e ∈ b := by
    intro a b ha hb h e he
    have h1 : e.1 ∈ keys b := (mem_keys_iff hb _).2 (h e.1 ▸ (mem_keys_iff ha _).1 (List.mem_map_of_mem he))
    obtain ⟨e', he', h2⟩ := List.mem_map.1 h1
    have h3 : e'.2 = e.2 := by
      rw [← get_eq_of_mem hb.good he', ← get_eq_of_mem ha.good he, h2, h]
    have : e' = e := Prod.ext h2 h3
    exact this ▸ he'
  have nd : ∀ {a : Dict R}, WF n a → a.Nodup := fun ha => List.Nodup.of_map Prod.fst ha.good.nodup
  have hp : a.Perm b := (List.perm_ext_iff_of_nodup (nd ha) (nd hb)).2 fun e => ⟨mem ha hb h e, mem hb ha (fun t => (h t).symm) e⟩
  exact hp.eq_of_pairwise (fun x y _ _ h1 h2 => absurd h2 (not_lt_of_gt h1)) ha.sorted hb.sorted

theorem get_eq_of_len {n : Nat} {a : Dict R} (ha : Good n a) {t : Tup} (ht : t.length ≠ n) : get a t = 0 :=
  get_of_not_mem fun h => ht (ha.len t h)

theorem toMv_inj {n : Nat} {a b : Dict R} (ha : WF n a) (hb : WF n b) (h : toMv n a = toMv n b) : a = b := by
  apply dict_ext ha hb
  intro t
  by_cases ht : t.length = n
  · rw [← coeff_toMv ha.good ht, ← coeff_toMv hb.good ht, h]
  · rw [get_eq_of_len ha.good ht, get_eq_of_len hb.good ht]

/-! ### Operations -/

theorem wf_nil (n : Nat) : WF n ([] : Dict R) := ⟨List.Pairwise.nil, by simp, by simp⟩

theorem wf_ofElt (n : Nat) (c : R) : WF n (ofElt n c) := wf_ofDict ⟨by simp [keys], by simp [keys]⟩

theorem tupF_zero (n : Nat) : tupF n (List.replicate n 0) = 0 := by
  ext i; simp

theorem toMv_ofElt (n : Nat) (c : R) : toMv n (ofElt n c) = C c := by
  rw [ofElt, toMv_ofDict, toMv_cons, toMv_nil, add_zero, tupF_zero]; rfl

theorem keys_map (d : Dict R) (g : R → R) : keys (d.map fun e => (e.1, g e.2)) = keys d := by
  simp [keys, Function.comp_def]

theorem wf_neg {n : Nat} {d : Dict R} (h : Good n d) : WF n (neg d) :=
  wf_ofDict ⟨by rw [keys_map]; exact h.nodup, by rw [keys_map]; exact h.len⟩

theorem toMv_map_neg (n : Nat) : ∀ d : Dict R, toMv n (d.map fun e => (e.1, -e.2)) = -toMv n d
  | [] => by simp
  | e :: d => by rw [List.map_cons, toMv_cons, toMv_map_neg n d, toMv_cons, map_neg, neg_add]

theorem toMv_neg (n : Nat) (d : Dict R) : toMv n (neg d) = -toMv n d := by rw [neg, toMv_ofDict, toMv_map_neg]

/-- The keys `__add__` visits. -/
def joint (a b : Dict R) : List Tup := keys a ++ (keys b).filter fun t => !(keys a).contains t

theorem mem_joint (a b : Dict R) (t : Tup) : t ∈ joint a b ↔ t ∈ keys a ∨ t ∈ keys b := by
  simp only [joint, List.mem_append, List.mem_filter, List.contains_eq_mem, Bool.not_eq_true', decide_eq_false_iff_not]
  tauto

theorem good_joint {n : Nat} {a b : Dict R} (ha : Good n a) (hb : Good n b) (g : Tup → R) :
    Good n ((joint a b).map fun t => (t, g t)) := by
  have hk : keys ((joint a b).map fun t => (t, g t)) = joint a b := by simp [keys, Function.comp_def]
  refine ⟨?_, ?_⟩
  · rw [hk, joint, List.nodup_append]
    refine ⟨ha.nodup, hb.nodup.filter _, ?_⟩
    intro x hx y hy hxy
    rw [List.mem_filter] at hy
    subst hxy
    simp [hx] at hy
  · rw [hk]
    intro t ht
    rcases (mem_joint a b t).1 ht with h | h
    · exact ha.len t h
    · exact hb.len t h

theorem get_map (l : List Tup) (g : Tup → R) (t : Tup) : get (l.map fun t => (t, g t)) t = if t ∈ l then g t else 0 := by
  induction l with
  | nil => simp [get_nil]
  | cons x l ih =>
    rw [List.map_cons, get_cons, ih]
    by_cases h : t = x
    · simp [h]
    · simp [h]

theorem wf_add {n : Nat} {a b : Dict R} (ha : Good n a) (hb : Good n b) : WF n (add a b) := wf_ofDict (good_joint ha hb _)

theorem toMv_add {n : Nat} {a b : Dict R} (ha : Good n a) (hb : Good n b) : toMv n (add a b) = toMv n a + toMv n b := by
  have hg := good_joint ha hb fun t => get a t + get b t
  change toMv n (ofDict ((joint a b).map fun t => (t, get a t + get b t))) = _
  rw [toMv_ofDict]
  ext s
  obtain ⟨t, ht, rfl⟩ := tupF_surj n s
  rw [coeff_toMv hg ht, coeff_add, coeff_toMv ha ht, coeff_toMv hb ht, get_map]
  split
  · rfl
  · next h =>
    rw [mem_joint, not_or] at h
    rw [get_of_not_mem h.1, get_of_not_mem h.2, add_zero]

theorem wf_sub {n : Nat} {a b : Dict R} (ha : Good n a) (hb : Good n b) : WF n (sub a b) := wf_add ha (wf_neg hb).good

theorem toMv_sub {n : Nat} {a b : Dict R} (ha : Good n a) (hb : Good n b) : toMv n (sub a b) = toMv n a - toMv n b := by
  rw [sub, toMv_add ha (wf_neg hb).good, toMv_neg, sub_eq_add_neg]

theorem addPowerTuples_len {n : Nat} {a b : Tup} (ha : a.length = n) (hb : b.length = n) : (addPowerTuples a b).length = n := by
  subst ha
  simp [addPowerTuples, hb]

theorem tupF_add {n : Nat} {a b : Tup} (ha : a.length = n) (hb : b.length = n) :
    tupF n (addPowerTuples a b) = tupF n a + tupF n b := by
  ext i
  have hi := i.2
  simp only [Finsupp.add_apply, tupF_apply]
  subst ha
  simp [addPowerTuples, hb]

theorem keys_upsert (t : Tup) (c : R) : ∀ d : Dict R, keys (upsert t c d) = if t ∈ keys d then keys d else keys d ++ [t]
  | [] => by simp [upsert, keys]
  | (t', c') :: d => by
    have ih := keys_upsert t c d
    rw [upsert]
    by_cases h : t' = t
    · rw [if_pos h, if_pos (by simp [keys, h])]; simp [keys]
    · rw [if_neg h]
      have e : keys ((t', c') :: upsert t c d) = t' :: keys (upsert t c d) := rfl
      have e' : keys ((t', c') :: d) = t' :: keys d := rfl
      have h' : ¬ t = t' := fun h1 => h h1.symm
      rw [e, ih, e']
      simp only [List.mem_cons, h', false_or]
      split <;> simp

theorem good_upsert {n : Nat} {t : Tup} (ht : t.length = n) (c : R) {d : Dict R} (h : Good n d) : Good n (upsert t c d) := by
  constructor
  · rw [keys_upsert]
    split
    · exact h.nodup
    · next hn =>
      rw [List.nodup_append]
      refine ⟨h.nodup, by simp, ?_⟩
      intro x hx y hy hxy
      simp at hy
      exact hn (hy ▸ hxy ▸ hx)
  · rw [keys_upsert]
    intro x hx
    split at hx
    · exact h.len x hx
    · rcases List.mem_append.1 hx with h1 | h1
      · exact h.len x h1
      · simp at h1; rw [h1]; exact ht

theorem toMv_upsert (n : Nat) (t : Tup) (c : R) : ∀ d : Dict R, toMv n (upsert t c d) = toMv n d + monomial (tupF n t) c
  | [] => by simp [upsert]
  | (t', c') :: d => by
    rw [upsert]
    split
    · next h => subst h; rw [toMv_cons, toMv_cons, map_add]; simp only; ring
    · rw [toMv_cons, toMv_upsert n t c d, toMv_cons]; ring

theorem mulRow_spec {n : Nat} {a : Tup} (ha : a.length = n) (ac : R) : ∀ (b acc : Dict R), (∀ t ∈ keys b, t.length = n) → Good n acc →
    Good n (mulRow a ac b acc) ∧ toMv n (mulRow a ac b acc) = toMv n acc + monomial (tupF n a) ac * toMv n b
  | [], acc, _, h => ⟨h, by simp [mulRow]⟩
  | e :: b, acc, hb, h => by
    have he : e.1.length = n := hb _ (by simp [keys])
    obtain ⟨h1, h2⟩ := mulRow_spec ha ac b (upsert (addPowerTuples a e.1) (ac * e.2) acc)
      (fun t ht => hb t (List.mem_cons_of_mem _ ht)) (good_upsert (addPowerTuples_len ha he) _ h)
    refine ⟨h1, ?_⟩
    have e' : mulRow a ac (e :: b) acc = mulRow a ac b (upsert (addPowerTuples a e.1) (ac * e.2) acc) := rfl
    rw [e', h2, toMv_upsert, toMv_cons, tupF_add ha he, mul_add, monomial_mul]; ring

theorem mulOuter_spec {n : Nat} (b : Dict R) (hb : ∀ t ∈ keys b, t.length = n) : ∀ (a acc : Dict R), (∀ t ∈ keys a, t.length = n) →
    Good n acc → Good n (a.foldl (fun acc e => mulRow e.1 e.2 b acc) acc) ∧
      toMv n (a.foldl (fun acc e => mulRow e.1 e.2 b acc) acc) = toMv n acc + toMv n a * toMv n b
  | [], acc, _, h => ⟨h, by simp⟩
  | e :: a, acc, ha, h => by
    obtain ⟨h1, h2⟩ := mulRow_spec (ha e.1 (by simp [keys])) e.2 b acc hb h
    obtain ⟨h3, h4⟩ := mulOuter_spec b hb a _ (fun t ht => ha t (List.mem_cons_of_mem _ ht)) h1
    refine ⟨h3, ?_⟩
    rw [List.foldl_cons, h4, h2, toMv_cons]; ring

theorem mul_spec {n : Nat} {a b : Dict R} (ha : Good n a) (hb : Good n b) :
    WF n (mul a b) ∧ toMv n (mul a b) = toMv n a * toMv n b := by
  unfold mul
  split
  · next h =>
    refine ⟨wf_nil n, ?_⟩
    simp only [isZero, Bool.or_eq_true, List.isEmpty_iff] at h
    rcases h with h | h <;> simp [h]
  · obtain ⟨h1, h2⟩ := mulOuter_spec b hb.len a [] ha.len ⟨by simp [keys], by simp [keys]⟩
    exact ⟨wf_ofDict h1, by rw [toMv_ofDict, h2]; simp⟩

theorem pow_spec {n : Nat} {a : Dict R} (ha : WF n a) (e : Nat) :
    ∃ r, pow n a e = .ok r ∧ WF n r ∧ toMv n r = toMv n a ^ e :=
  pyPow_interp (wf_ofElt n 1) (by rw [toMv_ofElt, map_one]) (fun a b ha hb => mul_spec (WF.good ha) (WF.good hb)) ha e

/-! ### Equality, degree -/

theorem eq_iff {n : Nat} {a b : Dict R} (ha : WF n a) (hb : WF n b) : eq a b = true ↔ a = b := by
  constructor
  · intro h
    simp only [eq, Bool.and_eq_true, decide_eq_true_eq, List.all_eq_true, List.contains_eq_mem] at h
    obtain ⟨⟨-, h1, h2⟩, h3⟩ := h
    apply dict_ext ha hb
    intro t
    by_cases ht : t ∈ keys a
    · exact h3 t ht
    · have : t ∉ keys b := fun h => ht (h2 t h)
      rw [get_of_not_mem ht, get_of_not_mem this]
  · rintro rfl
    simp [eq]

theorem sumPowerTuple_eq {n : Nat} {t : Tup} (ht : t.length = n) : sumPowerTuple t = (tupF n t).sum fun _ e => e := by
  have h1 : sumPowerTuple t = t.sum := by rw [sumPowerTuple, ← List.sum_eq_foldl_nat]
  have h2 : (tupF n t).sum (fun _ e => e) = ∑ i : Fin n, t.getD i 0 := by
    rw [Finsupp.sum_fintype _ _ (fun _ => rfl)]; rfl
  rw [h1, h2]
  subst ht
  conv_lhs => rw [← List.ofFn_getElem (xs := t)]
  rw [List.sum_ofFn]
  apply Finset.sum_congr rfl
  intro i _
  simp

theorem degree_foldl_max (d : Dict R) : ∀ m, d.foldl (fun m e => if sumPowerTuple e.1 > m then sumPowerTuple e.1 else m) m =
    (d.map fun e => sumPowerTuple e.1).foldl max m := by
  induction d with
  | nil => intro m; rfl
  | cons e d ih =>
    intro m
    rw [List.foldl_cons, ih, List.map_cons, List.foldl_cons]
    congr 1
    split <;> omega

theorem le_foldl_max : ∀ (l : List Nat) (m b : Nat), l.foldl max m ≤ b ↔ m ≤ b ∧ ∀ x ∈ l, x ≤ b
  | [], m, b => by simp
  | x :: l, m, b => by
    rw [List.foldl_cons, le_foldl_max l (max m x) b]
    simp only [List.mem_cons, forall_eq_or_imp, max_le_iff]; tauto

theorem degree_eq {n : Nat} {d : Dict R} (h : WF n d) : degree d = (toMv n d).totalDegree := by
  apply le_antisymm
  · rw [degree, degree_foldl_max, le_foldl_max]
    refine ⟨Nat.zero_le _, ?_⟩
    intro x hx
    obtain ⟨e, he, rfl⟩ := List.mem_map.1 hx
    rw [sumPowerTuple_eq (h.len e he)]
    apply le_totalDegree
    rw [mem_support_iff, coeff_toMv h.good (h.len e he), get_eq_of_mem h.good he]
    exact h.nz e he
  · apply Finset.sup_le
    intro s hs
    obtain ⟨t, ht, rfl⟩ := tupF_surj n s
    rw [mem_support_iff, coeff_toMv h.good ht] at hs
    obtain ⟨e, he, rfl⟩ := List.mem_map.1 ((mem_keys_iff h t).2 hs)
    rw [← sumPowerTuple_eq ht]
    have := (le_foldl_max (d.map fun e => sumPowerTuple e.1) 0 (degree d)).1 (by rw [degree, degree_foldl_max])
    exact this.2 _ (List.mem_map_of_mem (f := fun e : Tup × R => sumPowerTuple e.1) he)

/-! ### Evaluation -/

section call
variable {A : Type _} [CommRing A] [Algebra R A]

theorem monoLoop_spec (vals : List A) : ∀ (t : Tup) (i : Nat) (prod : A), i + t.length ≤ vals.length →
    monoLoop vals t i prod = .ok (prod * ∏ j ∈ Finset.range t.length, vals.getD (i + j) 0 ^ t.getD j 0)
  | [], i, prod, _ => by simp [monoLoop]
  | e :: es, i, prod, h => by
    simp only [List.length_cons] at h
    have hi : i < vals.length := by omega
    have e1 : pyIdx vals i = .ok (vals.getD i 0) := by simp [pyIdx, List.getElem?_eq_getElem hi]
    rw [monoLoop]
    simp only [e1, bind, Except.bind]
    rw [monoLoop_spec vals es (i + 1) _ (by omega), List.length_cons, Finset.prod_range_succ']
    simp only [List.getD_cons_succ, List.getD_cons_zero, Nat.add_zero]
    have : ∀ j, i + 1 + j = i + (j + 1) := fun j => by omega
    simp only [this]
    congr 1; ring

theorem callLoop_spec {n : Nat} (vals : List A) (hv : vals.length = n) : ∀ (d : Dict R) (y : A), (∀ e ∈ d, e.1.length = n) →
    callLoop vals d y = .ok (y + aeval (fun i : Fin n => vals.getD i 0) (toMv n d))
  | [], y, _ => by simp [callLoop]
  | (t, c) :: d, y, h => by
    have ht : t.length = n := h (t, c) (by simp)
    rw [callLoop, monoLoop_spec vals t 0 1 (by omega)]
    simp only [bind, Except.bind]
    rw [callLoop_spec vals hv d _ (fun e he => h e (by simp [he])), toMv_cons, map_add, aeval_monomial]
    congr 1
    have : (tupF n t).prod (fun i k => vals.getD (i : Nat) 0 ^ k) = ∏ j ∈ Finset.range t.length, vals.getD (0 + j) 0 ^ t.getD j 0 := by
      rw [Finsupp.prod_fintype _ _ (fun i => pow_zero _), ht, Finset.prod_range]
      simp
    rw [this]; ring

theorem call_spec {n : Nat} {d : Dict R} (h : ∀ e ∈ d, e.1.length = n) (vals : List A) (hv : vals.length = n) :
    call n d vals = .ok (aeval (fun i : Fin n => vals.getD i 0) (toMv n d)) := by
  simp only [call, pyAssert, hv, beq_self_eq_true, if_true, bind, Except.bind]
  rw [callLoop_spec vals hv d 0 h, zero_add]

end call

/-! ### The variables -/

theorem xi_key_len (n i : Nat) (hi : i < n) : (List.replicate i 0 ++ [1] ++ List.replicate (n - (i + 1)) 0).length = n := by
  simp; omega

theorem wf_xi (n i : Nat) (hi : i < n) : WF n (xi n i : Dict R) :=
  wf_ofDict ⟨by simp [keys], by simp only [keys, List.map_cons, List.map_nil, List.mem_singleton]; rintro t rfl; exact xi_key_len n i hi⟩

theorem tupF_xi (n i : Nat) (hi : i < n) : tupF n (List.replicate i 0 ++ [1] ++ List.replicate (n - (i + 1)) 0) = Finsupp.single ⟨i, hi⟩ 1 := by
  ext j
  rw [tupF_apply, Finsupp.single_apply, List.append_assoc]
  simp only [List.getD_eq_getElem?_getD, Fin.ext_iff]
  rcases Nat.lt_trichotomy j.1 i with h | h | h
  · rw [List.getElem?_append_left (by simpa using h)]
    simp [h]; omega
  · subst h
    rw [List.getElem?_append_right (by simp)]; simp
  · rw [List.getElem?_append_right (by simp; omega)]
    obtain ⟨k, hk⟩ : ∃ k, j.1 - i = k + 1 := ⟨j.1 - i - 1, by omega⟩
    simp only [List.length_replicate, hk]
    rw [List.singleton_append, List.getElem?_cons_succ, List.getElem?_replicate]
    split <;> simp <;> omega

theorem toMv_xi (n i : Nat) (hi : i < n) : toMv n (xi n i : Dict R) = X ⟨i, hi⟩ := by
  rw [xi, toMv_ofDict, toMv_cons, toMv_nil, add_zero, tupF_xi n i hi]; rfl

/-! ### The bundled type -/

/-- The values an instance of `multivariates_over(R, n)` can have. -/
def MP (n : Nat) (R : Type _) [CommRing R] : Type _ := {d : Dict R // WF n d}

namespace MP
variable {n : Nat}

instance : DecidableEq (MP n R) := inferInstanceAs (DecidableEq {d : Dict R // WF n d})

/-- The object with dictionary `d`. -/
def mk (d : Dict R) (h : WF n d) : MP n R := ⟨d, h⟩

/-- The dictionary of an object. -/
def dict (f : MP n R) : Dict R := Subtype.val f

theorem wf_dict (f : MP n R) : WF n f.dict := Subtype.property f

noncomputable def val (f : MP n R) : MvPolynomial (Fin n) R := toMv n f.1

theorem val_inj : Function.Injective (val (n := n) (R := R)) := fun f g h => Subtype.ext (toMv_inj f.2 g.2 h)

instance : Zero (MP n R) := ⟨⟨[], wf_nil n⟩⟩
instance : One (MP n R) := ⟨⟨ofElt n 1, wf_ofElt n 1⟩⟩
instance : Add (MP n R) := ⟨fun f g => ⟨add f.1 g.1, wf_add f.2.good g.2.good⟩⟩
instance : Sub (MP n R) := ⟨fun f g => ⟨sub f.1 g.1, wf_sub f.2.good g.2.good⟩⟩
instance : Mul (MP n R) := ⟨fun f g => ⟨mul f.1 g.1, (mul_spec f.2.good g.2.good).1⟩⟩
instance : Neg (MP n R) := ⟨fun f => ⟨neg f.1, wf_neg f.2.good⟩⟩

@[simp] theorem val_zero : (0 : MP n R).val = 0 := toMv_nil n
@[simp] theorem val_one : (1 : MP n R).val = 1 := (toMv_ofElt n 1).trans (map_one _)
@[simp] theorem val_add (f g : MP n R) : (f + g).val = f.val + g.val := toMv_add f.2.good g.2.good
@[simp] theorem val_sub (f g : MP n R) : (f - g).val = f.val - g.val := toMv_sub f.2.good g.2.good
@[simp] theorem val_mul (f g : MP n R) : (f * g).val = f.val * g.val := (mul_spec f.2.good g.2.good).2
@[simp] theorem val_neg (f : MP n R) : (-f).val = -f.val := toMv_neg n f.1

instance : CommRing (MP n R) where
  add_assoc a b c := val_inj (by simp [add_assoc])
  zero_add a := val_inj (by simp)
  add_zero a := val_inj (by simp)
  add_comm a b := val_inj (by simp [add_comm])
  left_distrib a b c := val_inj (by simp [mul_add])
  right_distrib a b c := val_inj (by simp [add_mul])
  zero_mul a := val_inj (by simp)
  mul_zero a := val_inj (by simp)
  mul_assoc a b c := val_inj (by simp [mul_assoc])
  one_mul a := val_inj (by simp)
  mul_one a := val_inj (by simp)
  neg_add_cancel a := val_inj (by simp)
  sub_eq_add_neg a b := val_inj (by simp [sub_eq_add_neg])
  mul_comm a b := val_inj (by simp [mul_comm])
  nsmul := nsmulRec
  zsmul := zsmulRec

/-- `Multivariate(d)` for a dictionary `{t: c}` with a tuple of the right length; `0` stands in for other tuples. -/
def single (n : Nat) (t : Tup) (c : R) : MP n R :=
  if h : t.length = n then mk (ofDict [(t, c)]) (wf_ofDict ⟨by simp [keys], by simp [keys, h]⟩) else 0

theorem val_single {t : Tup} (h : t.length = n) (c : R) : (single n t c).val = monomial (tupF n t) c := by
  rw [single, dif_pos h]
  change toMv n (ofDict [(t, c)]) = _
  rw [toMv_ofDict, toMv_cons, toMv_nil, add_zero]

/-- `Multivariate(c)` for a ring element. -/
def const (n : Nat) (c : R) : MP n R := ⟨ofElt n c, wf_ofElt n c⟩

theorem val_const (c : R) : (const n c).val = C c := toMv_ofElt n c

theorem val_surj : Function.Surjective (val (n := n) (R := R)) := by
  intro p
  induction p using MvPolynomial.induction_on' with
  | monomial s c =>
    obtain ⟨t, ht, rfl⟩ := tupF_surj n s
    exact ⟨single n t c, val_single ht c⟩
  | add p q hp hq =>
    obtain ⟨a, rfl⟩ := hp
    obtain ⟨b, rfl⟩ := hq
    exact ⟨a + b, val_add a b⟩

/-- The bundled type is isomorphic to Mathlib's polynomial ring. -/
noncomputable def equiv : MP n R ≃+* MvPolynomial (Fin n) R :=
  { Equiv.ofBijective val ⟨val_inj, val_surj⟩ with
    map_mul' := val_mul
    map_add' := val_add }

end MP

end Verif.Mv
