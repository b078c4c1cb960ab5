import Verif.Spec.Rewriting
import Verif.Proofs.Mining
/-!
# Searching for proofs of work when some hashes are known
-/

namespace Verif.Birthday

section
variable {D B : Type} [Fintype D] [DecidableEq D] [Fintype B] [DecidableEq B]

open Classical in
theorem fraction_cyl (known : Finset D) (h : D → B) (E : {H : D → B // ∀ x ∈ known, H x = h x} → Prop) :
    fraction E = (((cyl known h).filter fun H => ∃ hH, E ⟨H, hH⟩).card : ℚ) / (cyl known h).card := by
  rw [Sampling.fraction_eq]
  congr 2
  · refine Finset.card_bij (fun H _ => H.1) ?_ ?_ ?_
    · intro H hH
      rw [Finset.mem_filter] at hH ⊢
      exact ⟨mem_cyl.2 H.2, H.2, hH.2⟩
    · intro H _ H' _ e
      exact Subtype.ext e
    · intro H hH
      rw [Finset.mem_filter] at hH
      obtain ⟨_, hH, hE⟩ := hH
      exact ⟨⟨H, hH⟩, by simpa using hE, rfl⟩
  · rw [Fintype.card_subtype]
    rfl

theorem card_cyl_pos (known : Finset D) (h : D → B) : 0 < (cyl known h).card := Finset.card_pos.2 ⟨h, mem_cyl.2 fun _ _ => rfl⟩
end

noncomputable instance futureFintype {n : Nat} (P : Spec.Past n) : Fintype P.Future := by
  classical exact inferInstanceAs (Fintype {H : Short n → Digest // ∀ x ∈ P.known, H x = P.hash x})

open Classical in
/-- With given hashes of `known`, a program that hashes at most `m` strings finds `k` others with hashes in `G` with probability at most `C(m, k) (|G| / 2^256)^k`. -/
theorem prog_found_cyl {α : Type} (n m k : Nat) (other : Bytes → Digest) (known : Finset (Short n)) (h : Short n → Digest) (G : Finset Digest) (p : Prog α)
    (hm : ∀ H ∈ cyl known h, (p.asked (drawn H other)).length ≤ m) (E : {H : Short n → Digest // ∀ x ∈ known, H x = h x} → Prop)
    (hE : ∀ H, E H → ∃ xs : List Bytes, xs.Nodup ∧ k ≤ xs.length ∧ ∀ x ∈ xs, x ∈ p.asked (drawn H.1 other) ∧ (∃ hx : x.length ≤ n, ⟨x, hx⟩ ∉ known) ∧
      drawn H.1 other x ∈ G) :
    fraction E ≤ (m.choose k : ℚ) * ((G.card : ℚ) / 2 ^ 256) ^ k := by
  have hpos := card_cyl_pos known h
  have key := found_bound G (short n other p) m k known h fun H hH => le_trans (short_queries other H p).1 (hm H hH)
  rw [Sampling.card_digest] at key
  have hle : ((cyl known h).filter fun H => ∃ hH, E ⟨H, hH⟩).card ≤ ∑ H ∈ cyl known h, (found G known (short n other p) H).card.choose k := by
    rw [Finset.card_filter]
    refine Finset.sum_le_sum fun H _ => ?_
    split
    · rename_i hH
      obtain ⟨hH, hEH⟩ := hH
      obtain ⟨xs, hnd, hlen, hx⟩ := hE ⟨H, hH⟩ hEH
      refine Nat.choose_pos (le_trans hlen ?_)
      rw [← List.toFinset_card_of_nodup hnd, ← Finset.card_attach]
      refine Finset.card_le_card_of_injOn (fun x => ⟨x.1, (hx x.1 (List.mem_toFinset.1 x.2)).2.1.1⟩) ?_ ?_
      · intro x _
        obtain ⟨h1, ⟨h2, h4⟩, h3⟩ := hx x.1 (List.mem_toFinset.1 x.2)
        simp only [found, Finset.coe_filter, Finset.mem_sdiff, List.mem_toFinset, Set.mem_ofPred_eq]
        refine ⟨⟨(short_queries other H p).2 _ h2 h1, h4⟩, ?_⟩
        simpa [drawn, h2] using h3
      · intro x _ y _ h
        exact Subtype.ext (by simpa using h)
    · exact Nat.zero_le _
  rw [fraction_cyl, div_pow, mul_div_assoc', div_le_div_iff₀ (by exact_mod_cast hpos) (by positivity)]
  have := le_trans (Nat.mul_le_mul_right ((2 ^ 256) ^ k) hle) key
  exact_mod_cast this

open Classical in
/-- With given hashes of `known`, no two the same, a program that hashes at most `m` strings comes upon two with the same hash, among these and the known
ones, with probability at most `(2 |known| m + m (m - 1)) / 2^257`. -/
theorem prog_collision_cyl {α : Type} (n m : Nat) (other : Bytes → Digest) (known : Finset (Short n)) (h : Short n → Digest)
    (hk : ∀ a ∈ known, ∀ b ∈ known, h a = h b → a = b) (p : Prog α)
    (hm : ∀ H ∈ cyl known h, (p.asked (drawn H other)).length ≤ m) (E : {H : Short n → Digest // ∀ x ∈ known, H x = h x} → Prop)
    (hE : ∀ H, E H → ∃ a b, ∃ (ha : a.length ≤ n) (hb : b.length ≤ n), (⟨a, ha⟩ ∈ known ∨ a ∈ p.asked (drawn H.1 other)) ∧
      (⟨b, hb⟩ ∈ known ∨ b ∈ p.asked (drawn H.1 other)) ∧ a ≠ b ∧ drawn H.1 other a = drawn H.1 other b) :
    fraction E ≤ (2 * known.card * m + m * (m - 1) : ℚ) / 2 ^ 257 := by
  have hpos := card_cyl_pos known h
  have key := collisions (short n other p) m known h (fun H hH => le_trans (short_queries other H p).1 (hm H hH)) hk
  rw [Sampling.card_digest] at key
  have hle : ((cyl known h).filter fun H => ∃ hH, E ⟨H, hH⟩).card ≤ ((cyl known h).filter (Coll known (short n other p))).card := by
    refine Finset.card_le_card fun H hH => ?_
    rw [Finset.mem_filter] at hH ⊢
    obtain ⟨hc, hH, hEH⟩ := hH
    obtain ⟨a, b, ha, hb, h1, h2, hne, he⟩ := hE ⟨H, hH⟩ hEH
    refine ⟨hc, ⟨a, ha⟩, ⟨b, hb⟩, h1.imp_right ((short_queries other H p).2 a ha), h2.imp_right ((short_queries other H p).2 b hb),
      fun e => hne (congrArg Subtype.val e), ?_⟩
    simpa [drawn, ha, hb] using he
  rw [fraction_cyl, div_le_div_iff₀ (by exact_mod_cast hpos) (by positivity)]
  have hcast : ((2 * known.card * m + m * (m - 1) : ℕ) : ℚ) = 2 * known.card * m + (m : ℚ) * (m - 1) := by
    cases m with
    | zero => simp
    | succ m => push_cast; simp
  have := le_trans (Nat.mul_le_mul_right (2 * 2 ^ 256) hle) key
  rw [← hcast, show (2 : ℚ) ^ 257 = ((2 * 2 ^ 256 : ℕ) : ℚ) by rw [Nat.cast_mul, Nat.cast_pow, Nat.cast_ofNat, ← pow_succ']]
  exact_mod_cast this

end Verif.Birthday

namespace Verif.ChainHash
open Birthday Verif.ChainJson Verif.Spec.ChainJson

variable {N : Type} (T : Texts N)

theorem links_any {l : List (Json N)} {hash : Json N → String} {vp} (h : Links hash vp l) : Links hash (fun _ _ _ => true) l := by
  intro i hi
  obtain ⟨h1, p, q, hp, hq, _⟩ := h i hi
  exact ⟨h1, p, q, hp, hq, rfl⟩

theorem head_take {l : List (Json N)} {a : Json N} (ha : l.head? = some a) (k : Nat) : (l.take (k + 1)).head? = some a := by
  cases l with
  | nil => simp at ha
  | cons x l => simpa using ha

theorem last_take {l : List (Json N)} (k : Nat) (hk : k < l.length) : (l.take (k + 1)).getLast? = some l[k] := by
  rw [List.take_succ_eq_append_getElem hk, List.getLast?_append]
  simp

/-- Two chains that differ in block `j`: blocks of the second from `j` on have hashes that no block of the first has, unless there is a collision. -/
theorem hashes_apart (sha : Bytes → Digest) (hn : NumberTexts T.dump) {vp vp' : Json N → Json N → String → Bool} (l l' : List (Json N)) (a a' : Json N)
    (ha : l.head? = some a) (ha' : l'.head? = some a') (h1 : Links (blockHash T sha) vp l) (h2 : Links (blockHash T sha) vp' l')
    (hg : ∀ s, HasKey a "previous_hash" (.str s) → s.length ≠ 64) (hg' : ∀ s, HasKey a' "previous_hash" (.str s) → s.length ≠ 64)
    (j : Nat) (hj : j < l.length) (hj' : j < l'.length) (hne : ¬ Same l[j] l'[j]) (i t : Nat) (hi : i < l'.length) (ht : t < l.length) (hji : j ≤ i)
    (he : blockHash T sha l[t] = blockHash T sha l'[i]) : Clash T sha (l ++ l') := by
  rcases chain_of_hash T sha hn (l.take (t + 1)) (l'.take (i + 1)) a a' l[t] l'[i] (head_take ha t) (head_take ha' i) (last_take t ht) (last_take i hi)
    (links_take (links_any h1) _) (links_take (links_any h2) _) hg hg' he with h | h
  · have hlen := h.length_eq
    rw [List.length_take, List.length_take] at hlen
    have := (List.forall₂_iff_get.1 h).2 j (by rw [List.length_take]; omega) (by rw [List.length_take]; omega)
    simp only [List.get_eq_getElem, List.getElem_take] at this
    exact absurd this hne
  · refine clash_mono T sha (fun x hx => ?_) h
    rw [List.mem_append] at hx ⊢
    exact hx.imp List.mem_of_mem_take List.mem_of_mem_take

end Verif.ChainHash
