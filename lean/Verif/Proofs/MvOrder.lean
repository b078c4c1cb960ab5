import Verif.Spec.MvOrder
import Verif.Proofs.Multivariate
/-!
# The order of the dictionary does not matter
-/

namespace Verif.MvO
open Mv (Tup Dict toMv Good WF)

variable {R : Type _} [CommRing R] [DecidableEq R] {n : Nat}

/-- A stored dictionary: distinct keys of length `n`, no zero coefficient, any order. -/
structure Stored (n : Nat) (d : Dict R) : Prop where
  good : Good n d
  nz : ∀ e ∈ d, e.2 ≠ 0

theorem removeZero_of_nz {d : Dict R} (h : ∀ e ∈ d, e.2 ≠ 0) : Mv.removeZero d = d := by
  rw [Mv.removeZero, List.filter_eq_self]
  intro e he
  simpa using h e he

omit [CommRing R] [DecidableEq R] in
theorem iter_perm (d : Dict R) : (iter d).Perm d := List.perm_insertionSort _ _

theorem iter_eq_ofDict {d : Dict R} (h : ∀ e ∈ d, e.2 ≠ 0) : iter d = Mv.ofDict d := by
  rw [iter, Mv.ofDict, removeZero_of_nz h]

theorem wf_iter {d : Dict R} (h : Stored n d) : WF n (iter d) := by
  rw [iter_eq_ofDict h.nz]; exact Mv.wf_ofDict h.good

theorem toMv_iter (d : Dict R) : toMv n (iter d) = toMv n d := Mv.toMv_perm n (iter_perm d)

omit [CommRing R] [DecidableEq R] in
theorem good_sublist {d d' : Dict R} (hs : d'.Sublist d) (h : Good n d) : Good n d' :=
  ⟨h.nodup.sublist (hs.map Prod.fst), fun t ht => h.len t ((hs.map Prod.fst).mem ht)⟩

theorem stored_ofDict {d : Dict R} (h : Good n d) : Stored n (ofDict d) := by
  refine ⟨good_sublist List.filter_sublist h, fun e he => ?_⟩
  rw [ofDict, Mv.removeZero, List.mem_filter] at he
  simpa using he.2

omit [CommRing R] [DecidableEq R] in
theorem good_perm {d d' : Dict R} (hp : d'.Perm d) (h : Good n d) : Good n d' :=
  ⟨((hp.map Prod.fst).nodup_iff).2 h.nodup, fun t ht => h.len t ((hp.map Prod.fst).mem_iff.1 ht)⟩

theorem getItem_eq (d : Dict R) (t : Tup) : getItem d t = Mv.get d t := by
  rw [getItem]
  split
  · rfl
  · next h =>
    have : t ∉ Mv.keys d := by simpa [Mv.keys] using h
    rw [Mv.get_of_not_mem this]

theorem get_perm {d d' : Dict R} (hp : d'.Perm d) (h : Good n d) (t : Tup) : Mv.get d' t = Mv.get d t := by
  by_cases ht : t.length = n
  · rw [← Mv.coeff_toMv h ht, ← Mv.coeff_toMv (good_perm hp h) ht, Mv.toMv_perm n hp]
  · rw [Mv.get_eq_of_len h ht, Mv.get_eq_of_len (good_perm hp h) ht]

theorem neg_spec {d : Dict R} (h : Stored n d) : Stored n (neg d) ∧ toMv n (neg d) = -toMv n d := by
  have hg : Good n ((iter d).map fun e => (e.1, -e.2)) := by
    have := (wf_iter h).good
    exact ⟨by rw [Mv.keys_map (iter d) fun c => -c]; exact this.nodup, by rw [Mv.keys_map (iter d) fun c => -c]; exact this.len⟩
  refine ⟨stored_ofDict hg, ?_⟩
  rw [neg, ofDict, Mv.toMv_removeZero, Mv.toMv_map_neg, toMv_iter]

theorem add_spec {a b : Dict R} (ha : Stored n a) (hb : Stored n b) {order : List Tup} (ho : Enumerates order a b) :
    Stored n (add order a b) ∧ toMv n (add order a b) = toMv n a + toMv n b := by
  have hk : Mv.keys (order.map fun t => (t, getItem a t + getItem b t)) = order := by
    rw [Mv.keys, List.map_map]; simp [Function.comp_def]
  have hg : Good n (order.map fun t => (t, getItem a t + getItem b t)) := by
    refine ⟨by rw [hk]; exact ho.1, fun t ht => ?_⟩
    rw [hk] at ht
    rcases (ho.2 t).1 ht with h | h
    · exact ha.good.len t h
    · exact hb.good.len t h
  refine ⟨stored_ofDict hg, ?_⟩
  rw [add, ofDict, Mv.toMv_removeZero]
  ext s
  obtain ⟨t, ht, rfl⟩ := Mv.tupF_surj n s
  rw [MvPolynomial.coeff_add, Mv.coeff_toMv hg ht, Mv.coeff_toMv ha.good ht, Mv.coeff_toMv hb.good ht, Mv.get_map order, getItem_eq,
    getItem_eq]
  split
  · rfl
  · next h =>
    have h := mt (ho.2 t).2 h
    rw [not_or] at h
    rw [Mv.get_of_not_mem h.1, Mv.get_of_not_mem h.2, add_zero]

theorem mul_spec {a b : Dict R} (ha : Stored n a) (hb : Stored n b) :
    Stored n (mul a b) ∧ toMv n (mul a b) = toMv n a * toMv n b := by
  unfold mul
  split
  · next h =>
    refine ⟨⟨⟨by simp [Mv.keys], by simp [Mv.keys]⟩, by simp⟩, ?_⟩
    simp only [Mv.isZero, Bool.or_eq_true, List.isEmpty_iff] at h
    rcases h with h | h <;> simp [h]
  · obtain ⟨h1, h2⟩ := Mv.mulOuter_spec (iter b) (wf_iter hb).good.len (iter a) [] (wf_iter ha).good.len
      ⟨by simp [Mv.keys], by simp [Mv.keys]⟩
    exact ⟨stored_ofDict h1, by rw [ofDict, Mv.toMv_removeZero, h2, toMv_iter, toMv_iter]; simp⟩

theorem pow_spec {a : Dict R} (ha : Stored n a) (k : Nat) :
    ∃ r, pow n a k = .ok r ∧ Stored n r ∧ toMv n r = toMv n a ^ k :=
  pyPow_interp (stored_ofDict ⟨by simp [Mv.keys], by simp [Mv.keys]⟩)
    (by rw [ofDict, Mv.toMv_removeZero]; simp [Mv.tupF_zero]) (fun _ _ ha hb => mul_spec ha hb) ha k

theorem computes_spec {e : Expr R} {d : Dict R} (h : Computes n e d) (hp : Proper n e) : Stored n d ∧ toMv n d = denote n e := by
  induction h with
  | poly h =>
    have hg : Good n _ := ⟨hp.1, fun t ht => by obtain ⟨e, he, rfl⟩ := List.mem_map.1 ht; exact hp.2 e he⟩
    exact ⟨stored_ofDict (good_perm h hg), by rw [ofDict, Mv.toMv_removeZero, Mv.toMv_perm n h]; rfl⟩
  | add _ _ ho iha ihb =>
    obtain ⟨s1, t1⟩ := iha hp.1
    obtain ⟨s2, t2⟩ := ihb hp.2
    obtain ⟨s, t⟩ := add_spec s1 s2 ho
    exact ⟨s, by rw [t, t1, t2]; rfl⟩
  | sub _ _ ho iha ihb =>
    obtain ⟨s1, t1⟩ := iha hp.1
    obtain ⟨s2, t2⟩ := ihb hp.2
    obtain ⟨s3, t3⟩ := neg_spec s2
    obtain ⟨s, t⟩ := add_spec s1 s3 ho
    exact ⟨s, by rw [sub, t, t1, t3, t2, ← sub_eq_add_neg]; rfl⟩
  | neg _ iha =>
    obtain ⟨s1, t1⟩ := iha hp
    obtain ⟨s, t⟩ := neg_spec s1
    exact ⟨s, by rw [t, t1]; rfl⟩
  | mul _ _ iha ihb =>
    obtain ⟨s1, t1⟩ := iha hp.1
    obtain ⟨s2, t2⟩ := ihb hp.2
    obtain ⟨s, t⟩ := mul_spec s1 s2
    exact ⟨s, by rw [t, t1, t2]; rfl⟩
  | pow _ h iha =>
    obtain ⟨s1, t1⟩ := iha hp
    obtain ⟨r, hr, s, t⟩ := pow_spec s1 _
    obtain rfl : r = _ := Except.ok.inj (hr.symm.trans h)
    exact ⟨s, by rw [t, t1]; rfl⟩

/-- A run exists. -/
theorem computes_exists : ∀ e : Expr R, Proper n e → ∃ d, Computes n e d
  | .poly d, _ => ⟨_, .poly (List.Perm.refl d)⟩
  | .add a b, h => by
    obtain ⟨x, hx⟩ := computes_exists a h.1
    obtain ⟨y, hy⟩ := computes_exists b h.2
    exact ⟨_, .add hx hy (order := (x.map Prod.fst ++ y.map Prod.fst).dedup) ⟨List.nodup_dedup _, by simp⟩⟩
  | .sub a b, h => by
    obtain ⟨x, hx⟩ := computes_exists a h.1
    obtain ⟨y, hy⟩ := computes_exists b h.2
    exact ⟨_, .sub hx hy (order := (x.map Prod.fst ++ (neg y).map Prod.fst).dedup) ⟨List.nodup_dedup _, by simp⟩⟩
  | .neg a, h => by
    obtain ⟨x, hx⟩ := computes_exists a h
    exact ⟨_, .neg hx⟩
  | .mul a b, h => by
    obtain ⟨x, hx⟩ := computes_exists a h.1
    obtain ⟨y, hy⟩ := computes_exists b h.2
    exact ⟨_, .mul hx hy⟩
  | .pow a k, h => by
    obtain ⟨x, hx⟩ := computes_exists a h
    obtain ⟨r, hr, _⟩ := pow_spec (computes_spec hx h).1 k
    exact ⟨r, .pow hx hr⟩

theorem degree_perm {a b : Dict R} (h : a.Perm b) : Mv.degree a = Mv.degree b := by
  rw [Mv.degree, Mv.degree, Mv.degree_foldl_max, Mv.degree_foldl_max]
  apply le_antisymm <;> rw [Mv.le_foldl_max] <;> refine ⟨((Mv.le_foldl_max _ 0 _).1 le_rfl).1, fun x hx => ?_⟩
  · exact ((Mv.le_foldl_max _ 0 _).1 le_rfl).2 x ((h.map _).mem_iff.1 hx)
  · exact ((Mv.le_foldl_max _ 0 _).1 le_rfl).2 x ((h.map _).mem_iff.2 hx)

theorem iter_eq_of_toMv {a b : Dict R} (ha : Stored n a) (hb : Stored n b) (h : toMv n a = toMv n b) : iter a = iter b :=
  Mv.toMv_inj (wf_iter ha) (wf_iter hb) (by rw [toMv_iter, toMv_iter, h])

theorem eq_iff {a b : Dict R} (ha : Stored n a) (hb : Stored n b) : eq a b = true ↔ toMv n a = toMv n b := by
  constructor
  · intro h
    simp only [eq, Bool.and_eq_true, decide_eq_true_eq, List.all_eq_true, List.contains_eq_mem, getItem_eq] at h
    obtain ⟨⟨-, h1, h2⟩, h3⟩ := h
    ext s
    obtain ⟨t, ht, rfl⟩ := Mv.tupF_surj n s
    rw [Mv.coeff_toMv ha.good ht, Mv.coeff_toMv hb.good ht]
    by_cases hk : t ∈ a.map Prod.fst
    · exact h3 t hk
    · have : t ∉ b.map Prod.fst := fun h => hk (h2 t h)
      rw [Mv.get_of_not_mem hk, Mv.get_of_not_mem this]
  · intro h
    have hp : a.Perm b := ((iter_perm a).symm.trans (iter_eq_of_toMv ha hb h ▸ List.Perm.refl _)).trans (iter_perm b)
    simp only [eq, Bool.and_eq_true, decide_eq_true_eq, List.all_eq_true, List.contains_eq_mem, getItem_eq]
    exact ⟨⟨degree_perm hp, fun t ht => (hp.map _).mem_iff.1 ht, fun t ht => (hp.map _).mem_iff.2 ht⟩,
      fun t _ => get_perm hp hb.good t⟩

end Verif.MvO
