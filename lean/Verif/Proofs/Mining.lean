import Verif.Proofs.ChainHash
import Mathlib.Data.Nat.Choose.Basic
import Mathlib.Data.Nat.Choose.Sum
/-!
# How many hash calls proofs of work take
-/

namespace Verif.Birthday

variable {D B : Type} [Fintype D] [DecidableEq D] [Fintype B] [DecidableEq B]

/-- The arguments asked for, not among `known`, whose values are in `G`. -/
def found (G : Finset B) (known : Finset D) (t : Tree D B) (H : D → B) : Finset D := ((t.queries H).toFinset \ known).filter fun x => H x ∈ G

theorem found_bound (G : Finset B) : ∀ (t : Tree D B) (m j : Nat) (known : Finset D) (h : D → B), (∀ H ∈ cyl known h, (t.queries H).length ≤ m) →
    (∑ H ∈ cyl known h, (found G known t H).card.choose j) * Fintype.card B ^ j ≤ m.choose j * G.card ^ j * (cyl known h).card := by
  intro t
  induction t with
  | stop =>
    intro m j known h _
    have : ∀ H, found G known .stop H = ∅ := fun H => by simp [found, Tree.queries]
    simp only [this, Finset.card_empty, Finset.sum_const, smul_eq_mul]
    cases j with
    | zero => simp
    | succ j => simp
  | ask x next ih =>
    intro m j known h hm
    have hpos : 1 ≤ m := by
      have := hm h (by rw [mem_cyl]; intros; rfl)
      simp only [Tree.queries, List.length_cons] at this
      omega
    obtain ⟨m, rfl⟩ : ∃ m', m = m' + 1 := ⟨m - 1, by omega⟩
    by_cases hx : x ∈ known
    · have hq : ∀ H ∈ cyl known h, found G known (.ask x next) H = found G known (next (h x)) H := by
        intro H hH
        have e : H x = h x := mem_cyl.1 hH x hx
        simp only [found, Tree.queries, e, List.toFinset_cons, Finset.insert_sdiff_of_mem _ hx]
      rw [Finset.sum_congr rfl fun H hH => by rw [hq H hH]]
      refine le_trans (ih (h x) m j known h fun H hH => ?_) ?_
      · have := hm H hH
        rw [Tree.queries, mem_cyl.1 hH x hx, List.length_cons] at this
        omega
      · gcongr
        omega
    · cases j with
      | zero => simp
      | succ j =>
      set S := (cyl known h).card with hS
      have hcard : ∀ y, (cyl (insert x known) (Function.update h x y)).card * Fintype.card B = S := fun y => card_cyl_insert hx y
      have hN : ∑ y : B, (cyl (insert x known) (Function.update h x y)).card = S := by
        rw [hS, Finset.card_eq_sum_card_fiberwise (f := fun H : D → B => H x) (t := Finset.univ) fun _ _ => by simp]
        exact Finset.sum_congr rfl fun y _ => by rw [cyl_insert hx]
      have hsplit : ∀ F : (D → B) → Nat, ∑ H ∈ cyl known h, F H = ∑ y : B, ∑ H ∈ cyl (insert x known) (Function.update h x y), F H := by
        intro F
        rw [← Finset.sum_fiberwise_of_maps_to (g := fun H : D → B => H x) (t := Finset.univ) fun _ _ => Finset.mem_univ _]
        exact Finset.sum_congr rfl fun y _ => by rw [cyl_insert hx]
      have hq : ∀ y, ∀ H ∈ cyl (insert x known) (Function.update h x y), (found G known (.ask x next) H).card =
          (found G (insert x known) (next y) H).card + if y ∈ G then 1 else 0 := by
        intro y H hH
        rw [cyl_insert hx, Finset.mem_filter] at hH
        have hxm : x ∉ found G (insert x known) (next y) H := by simp [found]
        by_cases hy : y ∈ G
        · rw [if_pos hy, ← Finset.card_insert_of_notMem hxm]
          congr 1
          ext z
          simp only [found, Tree.queries, hH.2, List.toFinset_cons, Finset.mem_filter, Finset.mem_sdiff, Finset.mem_insert, List.mem_toFinset]
          constructor
          · rintro ⟨⟨h1 | h1, h2⟩, h3⟩
            · exact .inl h1
            · by_cases hz : z = x
              · exact .inl hz
              · exact .inr ⟨⟨h1, by tauto⟩, h3⟩
          · rintro (rfl | ⟨⟨h1, h2⟩, h3⟩)
            · exact ⟨⟨.inl rfl, hx⟩, by rw [hH.2]; exact hy⟩
            · exact ⟨⟨.inr h1, by tauto⟩, h3⟩
        · rw [if_neg hy, add_zero]
          congr 1
          ext z
          simp only [found, Tree.queries, hH.2, List.toFinset_cons, Finset.mem_filter, Finset.mem_sdiff, Finset.mem_insert, List.mem_toFinset]
          constructor
          · rintro ⟨⟨h1 | h1, h2⟩, h3⟩
            · subst h1; rw [hH.2] at h3; exact absurd h3 hy
            · have hz : z ≠ x := by rintro rfl; rw [hH.2] at h3; exact hy h3
              exact ⟨⟨h1, by tauto⟩, h3⟩
          · rintro ⟨⟨h1, h2⟩, h3⟩
            exact ⟨⟨.inr h1, by tauto⟩, h3⟩
      have hlen : ∀ y, ∀ H ∈ cyl (insert x known) (Function.update h x y), ((next y).queries H).length ≤ m := by
        intro y H hH
        rw [cyl_insert hx, Finset.mem_filter] at hH
        have := hm H hH.1
        rw [Tree.queries, hH.2, List.length_cons] at this
        omega
      rw [hsplit, Finset.sum_mul]
      have hterm : ∀ y : B, (∑ H ∈ cyl (insert x known) (Function.update h x y), (found G known (.ask x next) H).card.choose (j + 1)) * Fintype.card B ^ (j + 1) ≤
          m.choose (j + 1) * G.card ^ (j + 1) * (cyl (insert x known) (Function.update h x y)).card + if y ∈ G then m.choose j * G.card ^ j * S else 0 := by
        intro y
        have i1 := ih y m (j + 1) (insert x known) (Function.update h x y) (hlen y)
        have i2 := ih y m j (insert x known) (Function.update h x y) (hlen y)
        rw [Finset.sum_congr rfl fun H hH => by rw [hq y H hH]]
        by_cases hy : y ∈ G
        · simp only [if_pos hy]
          simp only [Nat.choose_succ_succ, Finset.sum_add_distrib]
          rw [add_mul, add_comm]
          refine Nat.add_le_add i1 ?_
          rw [pow_succ, ← mul_assoc]
          calc _ ≤ m.choose j * G.card ^ j * (cyl (insert x known) (Function.update h x y)).card * Fintype.card B := Nat.mul_le_mul_right _ i2
            _ = _ := by rw [mul_assoc, hcard y]
        · simp only [if_neg hy, add_zero]
          exact i1
      refine le_trans (Finset.sum_le_sum fun y _ => hterm y) ?_
      rw [Finset.sum_add_distrib, ← Finset.mul_sum, hN, Finset.sum_ite_mem, Finset.univ_inter, Finset.sum_const, smul_eq_mul, Nat.choose_succ_succ, pow_succ]
      apply le_of_eq
      ring

/-- Avoiding `G` at given arguments. -/
theorem avoid (G : Finset B) : ∀ (xs : List D) (known : Finset D) (h : D → B), xs.Nodup → (∀ x ∈ xs, x ∉ known) →
    ((cyl known h).filter fun H => ∀ x ∈ xs, H x ∉ G).card * Fintype.card B ^ xs.length = (Fintype.card B - G.card) ^ xs.length * (cyl known h).card := by
  intro xs
  induction xs with
  | nil => intro known h _ _; simp
  | cons x xs ih =>
    intro known h hnd hk
    have hx : x ∉ known := hk x (by simp)
    obtain ⟨hxs, hnd⟩ := List.nodup_cons.1 hnd
    have hsum : ((cyl known h).filter fun H => ∀ z ∈ x :: xs, H z ∉ G).card =
        ∑ y : B, (((cyl known h).filter fun H => ∀ z ∈ x :: xs, H z ∉ G).filter fun H => H x = y).card :=
      Finset.card_eq_sum_card_fiberwise (f := fun H : D → B => H x) (t := Finset.univ) fun _ _ => by simp
    have hfib : ∀ y : B, (((cyl known h).filter fun H => ∀ z ∈ x :: xs, H z ∉ G).filter fun H => H x = y).card * Fintype.card B ^ (xs.length + 1) =
        if y ∈ Gᶜ then (Fintype.card B - G.card) ^ xs.length * (cyl known h).card else 0 := by
      intro y
      rw [Finset.filter_comm, ← cyl_insert hx]
      by_cases hy : y ∈ G
      · rw [if_neg (by simpa using hy), Finset.filter_eq_empty_iff.2, Finset.card_empty, zero_mul]
        intro H hH hall
        rw [cyl_insert hx, Finset.mem_filter] at hH
        exact hall x (by simp) (hH.2 ▸ hy)
      · rw [if_pos (by simpa using hy)]
        have : (cyl (insert x known) (Function.update h x y)).filter (fun H => ∀ z ∈ x :: xs, H z ∉ G) =
            (cyl (insert x known) (Function.update h x y)).filter fun H => ∀ z ∈ xs, H z ∉ G := by
          refine Finset.filter_congr fun H hH => ?_
          rw [cyl_insert hx, Finset.mem_filter] at hH
          rw [List.forall_mem_cons, hH.2]
          exact ⟨fun h => h.2, fun h => ⟨hy, h⟩⟩
        rw [this, pow_succ, ← mul_assoc, ih (insert x known) (Function.update h x y) hnd fun z hz hm => by
          rcases Finset.mem_insert.1 hm with rfl | hm
          · exact hxs hz
          · exact hk z (by simp [hz]) hm]
        rw [mul_assoc, card_cyl_insert hx y]
    rw [hsum, Finset.sum_mul, List.length_cons, Finset.sum_congr rfl fun y _ => hfib y, Finset.sum_ite_mem, Finset.univ_inter, Finset.sum_const,
      Finset.card_compl, smul_eq_mul, pow_succ]
    ring

open Classical in
/-- A program that hashes at most `m` strings finds `k` strings with hashes in `G` with probability at most `C(m, k) (|G| / 2^256)^k`. -/
theorem prog_found {α : Type} (n m k : Nat) (other : Bytes → Digest) (G : Finset Digest) (p : Prog α)
    (hm : ∀ H : Short n → Digest, (p.asked (drawn H other)).length ≤ m) (E : (Short n → Digest) → Prop)
    (hE : ∀ H, E H → ∃ xs : List Bytes, xs.Nodup ∧ k ≤ xs.length ∧ ∀ x ∈ xs, x ∈ p.asked (drawn H other) ∧ x.length ≤ n ∧ drawn H other x ∈ G) :
    fraction E ≤ (m.choose k : ℚ) * ((G.card : ℚ) / 2 ^ 256) ^ k := by
  have hpos : 0 < Fintype.card (Short n → Digest) := Fintype.card_pos_iff.2 ⟨fun x => other x.1⟩
  have key := found_bound G (short n other p) m k ∅ (fun x => other x.1) fun H _ => le_trans (short_queries other H p).1 (hm H)
  have hc : cyl (∅ : Finset (Short n)) (fun x => other x.1) = Finset.univ := by ext H; simp [mem_cyl]
  rw [hc, Sampling.card_digest, Finset.card_univ] at key
  have hle : (Finset.univ.filter fun H : Short n → Digest => E H).card ≤ ∑ H : Short n → Digest, (found G ∅ (short n other p) H).card.choose k := by
    rw [Finset.card_filter]
    refine Finset.sum_le_sum fun H _ => ?_
    split
    · rename_i hH
      obtain ⟨xs, hnd, hlen, hx⟩ := hE H hH
      refine Nat.choose_pos (le_trans hlen ?_)
      rw [← List.toFinset_card_of_nodup hnd, ← Finset.card_attach]
      refine Finset.card_le_card_of_injOn (fun x => ⟨x.1, (hx x.1 (List.mem_toFinset.1 x.2)).2.1⟩) ?_ ?_
      · intro x _
        obtain ⟨h1, h2, h3⟩ := hx x.1 (List.mem_toFinset.1 x.2)
        simp only [found, Finset.sdiff_empty, Finset.coe_filter, List.mem_toFinset, Set.mem_ofPred_eq]
        refine ⟨(short_queries other H p).2 _ h2 h1, ?_⟩
        simpa [drawn, h2] using h3
      · intro x _ y _ h
        exact Subtype.ext (by simpa using h)
    · exact Nat.zero_le _
  rw [Sampling.fraction_eq, div_pow, mul_div_assoc', div_le_div_iff₀ (by exact_mod_cast hpos) (by positivity)]
  have := le_trans (Nat.mul_le_mul_right ((2 ^ 256) ^ k) hle) key
  exact_mod_cast this

end Verif.Birthday

namespace Verif.ChainHash
open Birthday

/-- The digests with four leading zeros, as a finite set. -/
noncomputable def goodSet : Finset Digest := Finset.univ.filter Good

theorem card_good : goodSet.card * 65536 = 2 ^ 256 := by
  have h8 : Fintype.card UInt8 = 256 := by
    rw [Fintype.card_congr (⟨UInt8.toFin, UInt8.ofFin, by intro x; simp, by intro x; simp⟩ : UInt8 ≃ Fin 256), Fintype.card_fin]
  have e : goodSet.card = Fintype.card (List.Vector UInt8 30) := by
    rw [goodSet, ← Fintype.card_subtype]
    refine Fintype.card_congr ⟨fun d => ⟨d.1.1.drop 2, by rw [List.length_drop, d.1.2]⟩, fun v => ⟨⟨0 :: 0 :: v.1, by simp [v.2]⟩, by rw [good_iff]; rfl⟩, ?_, ?_⟩
    · intro d
      apply Subtype.ext
      apply Subtype.ext
      have := (good_iff d.1).1 d.2
      change 0 :: 0 :: d.1.1.drop 2 = d.1.1
      conv_rhs => rw [← List.take_append_drop 2 d.1.1, this]
      rfl
    · intro v; rfl
  rw [e, card_vector, h8]
  norm_num

theorem good_fraction : (goodSet.card : ℚ) / 2 ^ 256 = 1 / 65536 := by
  rw [div_eq_div_iff (by positivity) (by norm_num), one_mul]
  have := congrArg (Nat.cast : ℕ → ℚ) card_good
  rw [Nat.cast_mul, Nat.cast_pow] at this
  exact this

theorem fraction_or {Ω : Type} [Fintype Ω] (P Q : Ω → Prop) : fraction (fun ω => P ω ∨ Q ω) ≤ fraction P + fraction Q := by
  classical
  rw [Sampling.fraction_eq, Sampling.fraction_eq, Sampling.fraction_eq, ← add_div]
  refine div_le_div_of_nonneg_right ?_ (Nat.cast_nonneg _)
  rw [Finset.filter_or]
  exact_mod_cast Finset.card_union_le _ _

open Verif.ChainJson Verif.Spec.ChainJson

variable {N : Type} (T : Texts N)

/-- Hashing given strings, as a program. -/
def askAll : List Bytes → Prog Unit
  | [] => .done ()
  | x :: l => .ask x fun _ => askAll l

theorem askAll_asked (h : Bytes → Digest) : ∀ l : List Bytes, (askAll l).asked h = l
  | [] => rfl
  | x :: l => by rw [askAll, Prog.asked, askAll_asked h l]

/-- The proof of a block. -/
def proofOf (b : Json N) : Json N := match b.key "proof" with | .ok p => p | .error _ => .null

theorem proofOf_eq {b p : Json N} (h : HasKey b "proof" p) : proofOf b = p := by
  obtain ⟨d, rfl, h⟩ := h
  simp [proofOf, Json.key, h]

/-- Checking a chain, as a program: the text of every block is hashed, and the guess of every block but the first. -/
def checkProg : List (Json N) → Prog Unit
  | [] => .done ()
  | [a] => .ask (dumps T.dump a) fun _ => .done ()
  | a :: b :: l => .ask (dumps T.dump a) fun d => .ask (guess T (proofOf a) (proofOf b) (hexdigest d)) fun _ => checkProg (b :: l)

theorem checkProg_length (h : Bytes → Digest) : ∀ l : List (Json N), ((checkProg T l).asked h).length ≤ 2 * l.length - 1
  | [] => by simp [checkProg, Prog.asked]
  | [a] => by simp [checkProg, Prog.asked]
  | a :: b :: l => by
    have := checkProg_length h (b :: l)
    simp only [checkProg, Prog.asked, List.length_cons] at this ⊢
    omega

theorem checkProg_block (h : Bytes → Digest) : ∀ (l : List (Json N)) (a : Json N), a ∈ l → dumps T.dump a ∈ (checkProg T l).asked h
  | [], a, ha => by simp at ha
  | [a], x, hx => by
    rw [List.mem_singleton.1 hx]
    simp [checkProg, Prog.asked]
  | a :: b :: l, x, hx => by
    rw [checkProg, Prog.asked, Prog.asked]
    rcases List.mem_cons.1 hx with rfl | hx
    · exact List.mem_cons_self
    · exact List.mem_cons_of_mem _ (List.mem_cons_of_mem _ (checkProg_block h (b :: l) x hx))

theorem checkProg_guess (h : Bytes → Digest) : ∀ (l : List (Json N)) (i : Nat) (hi : i + 1 < l.length),
    guess T (proofOf l[i]) (proofOf l[i + 1]) (blockHash T h l[i]) ∈ (checkProg T l).asked h
  | [], i, hi => by simp at hi
  | [a], i, hi => by simp at hi
  | a :: b :: l, 0, _ => by
    rw [checkProg, Prog.asked, Prog.asked]
    exact List.mem_cons_of_mem _ List.mem_cons_self
  | a :: b :: l, i + 1, hi => by
    rw [checkProg, Prog.asked, Prog.asked]
    exact List.mem_cons_of_mem _ (List.mem_cons_of_mem _ (checkProg_guess h (b :: l) i (by simpa using hi)))

theorem links_take {l : List (Json N)} {hash vp} (h : Links hash vp l) (n : Nat) : Links hash vp (l.take n) := by
  intro i hi
  rw [List.length_take] at hi
  have := h i (by omega)
  rwa [List.getElem_take, List.getElem_take]

/-- Blocks of a valid chain have different hashes, unless there is a collision. -/
theorem hashes_differ (sha : Bytes → Digest) (hn : NumberTexts T.dump) {vp : Json N → Json N → String → Bool} (l : List (Json N)) (a : Json N)
    (ha : l.head? = some a) (h : Links (blockHash T sha) vp l) (hg : ∀ s, HasKey a "previous_hash" (.str s) → s.length ≠ 64) (i j : Nat)
    (hi : i < l.length) (hj : j < l.length) (he : blockHash T sha l[i] = blockHash T sha l[j]) : i = j ∨ Clash T sha l := by
  have hd : ∀ k, k < l.length → (l.take (k + 1)).head? = some a := by
    intro k hk
    cases l with
    | nil => simp at hk
    | cons x l => simpa using ha
  have hl : ∀ k (hk : k < l.length), (l.take (k + 1)).getLast? = some l[k] := by
    intro k hk
    rw [List.take_succ_eq_append_getElem hk, List.getLast?_append]
    simp
  rcases chain_of_hash T sha hn (l.take (i + 1)) (l.take (j + 1)) a a l[i] l[j] (hd i hi) (hd j hj) (hl i hi) (hl j hj) (links_take h _) (links_take h _) hg hg he with h | h
  · left
    have := h.length_eq
    rw [List.length_take, List.length_take] at this
    omega
  · right
    refine clash_mono T sha (fun x hx => ?_) h
    rcases List.mem_append.1 hx with hx | hx <;> exact List.mem_of_mem_take hx

theorem guess_inj {p q p' q' : Json N} {d d' : Digest} (h : guess T p q (hexdigest d) = guess T p' q' (hexdigest d')) : d = d' ∧ T.str p ++ T.str q = T.str p' ++ T.str q' := by
  have := List.append_inj' h (by rw [utf8_hexdigest_length, utf8_hexdigest_length])
  exact ⟨utf8_hexdigest_inj this.2, this.1⟩

/-- The number of functions for which given guesses, depending on one value, all fail. -/
theorem attempts {D B : Type} [Fintype D] [DecidableEq D] [Fintype B] [DecidableEq B] [Nonempty B] (G : Finset B) (x0 : D) (t : Nat) (xs : B → Fin t → D)
    (hinj : ∀ y, Function.Injective (xs y)) (hne : ∀ y i, xs y i ≠ x0) :
    (Finset.univ.filter fun H : D → B => ∀ i, H (xs (H x0) i) ∉ G).card * Fintype.card B ^ t = (Fintype.card B - G.card) ^ t * Fintype.card (D → B) := by
  obtain ⟨y0⟩ := ‹Nonempty B›
  let h : D → B := fun _ => y0
  have hc : cyl (∅ : Finset D) h = Finset.univ := by ext H; simp [mem_cyl]
  have hsum : (Finset.univ.filter fun H : D → B => ∀ i, H (xs (H x0) i) ∉ G).card =
      ∑ y : B, ((Finset.univ.filter fun H : D → B => ∀ i, H (xs (H x0) i) ∉ G).filter fun H => H x0 = y).card :=
    Finset.card_eq_sum_card_fiberwise (f := fun H : D → B => H x0) (t := Finset.univ) fun _ _ => by simp
  have hfib : ∀ y : B, ((Finset.univ.filter fun H : D → B => ∀ i, H (xs (H x0) i) ∉ G).filter fun H => H x0 = y).card * Fintype.card B ^ t =
      (Fintype.card B - G.card) ^ t * (cyl (insert x0 ∅) (Function.update h x0 y)).card := by
    intro y
    have := avoid G (List.ofFn (xs y)) (insert x0 ∅) (Function.update h x0 y) (List.nodup_ofFn.2 (hinj y)) fun x hx hm => by
      obtain ⟨i, rfl⟩ := List.mem_ofFn.1 hx
      simp at hm
      exact hne y i hm
    rw [List.length_ofFn] at this
    rw [← this]
    congr 2
    rw [Finset.filter_comm, cyl_insert (by simp), hc]
    refine Finset.filter_congr fun H hH => ?_
    have hy : H x0 = y := (Finset.mem_filter.1 hH).2
    rw [hy]
    simp [List.mem_ofFn]
  rw [hsum, Finset.sum_mul, Finset.sum_congr rfl fun y _ => hfib y, ← Finset.mul_sum]
  congr 1
  rw [← Finset.card_univ, ← hc, Finset.card_eq_sum_card_fiberwise (f := fun H : D → B => H x0) (t := Finset.univ) fun _ _ => by simp]
  exact Finset.sum_congr rfl fun y _ => by rw [cyl_insert (by simp)]

end Verif.ChainHash
