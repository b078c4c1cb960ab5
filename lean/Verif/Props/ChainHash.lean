import Verif.Proofs.Mining
import Verif.Props.ChainJson
import Mathlib.Data.Nat.Choose.Bounds
/-!
# What the hashes of a chain are worth

C150, C151 and C152, about `hash`, `valid_proof`, `proof_of_work` and `valid_chain` as built from `json.dumps` and SHA-256.
-/

namespace Verif.Props
open ChainJson ChainHash Spec.ChainJson Birthday

variable {N : Type}

/-! ### C150 -/

/-- **C150** (texts). Two JSON values have the same text, the one `hash` takes the SHA-256 of, exactly when they are the same value, up to the order
of the keys of dictionaries. -/
theorem C150_text {num : N → Bytes} (hn : NumberTexts num) (a b : Json N) : dumps num a = dumps num b ↔ Same a b :=
  ⟨fun h => (dumps_inj hn a b [] [] (by simp [End]) (by simp [End]) (by rw [List.append_nil, List.append_nil, h])).1, dumps_same⟩

/-- **C150** (hashes). Two blocks have the same hash exactly when they are the same or their texts collide under SHA-256. -/
theorem C150_hash (T : Texts N) (hn : NumberTexts T.dump) (sha : Bytes → Digest) (a b : Json N) :
    blockHash T sha a = blockHash T sha b ↔ Same a b ∨ (dumps T.dump a ≠ dumps T.dump b ∧ sha (dumps T.dump a) = sha (dumps T.dump b)) := by
  constructor
  · intro h
    have h := hexdigest_inj h
    by_cases e : dumps T.dump a = dumps T.dump b
    · exact .inl ((C150_text hn a b).1 e)
    · exact .inr ⟨e, h⟩
  · rintro (h | h)
    · rw [blockHash, blockHash, (C150_text hn a b).2 h]
    · rw [blockHash, blockHash, h.2]

/-- **C150** (guesses, partial). The string `valid_proof` takes the SHA-256 of determines the hash of the last block, and of the two proofs what is
written when one is put after the other. Missing: that it determines the two proofs, which is false (`C150_guess_refuted`). -/
theorem C150_guess_partial (T : Texts N) (p q p' q' : Json N) (d d' : Digest) :
    guess T p q (hexdigest d) = guess T p' q' (hexdigest d') ↔ d = d' ∧ T.str p ++ T.str q = T.str p' ++ T.str q' := by
  refine ⟨guess_inj T, fun h => ?_⟩
  rw [guess, guess, h.1, h.2]

/-- **C150** (refuted). The proofs 1 and 23 give the same string as 12 and 3, so that one pair is accepted exactly when the other is, whatever
SHA-256 does. -/
theorem C150_guess_refuted (sha : Bytes → Digest) (h : String) :
    validProof intTexts sha (.num 1) (.num 23) h = validProof intTexts sha (.num 12) (.num 3) h := by
  have e : intText 1 ++ intText 23 = intText 12 ++ intText 3 := by decide +kernel
  have : guess intTexts (.num 1) (.num 23) h = guess intTexts (.num 12) (.num 3) h := congrArg (· ++ utf8 h) e
  rw [validProof, validProof, this]

/-! ### C151 -/

theorem validChain_world (T : Texts N) (sha : Bytes → Digest) (W : World N) (l : List (Json N)) :
    validChain (world T sha W) (.arr l) = .ok true ↔ l ≠ [] ∧ Links (blockHash T sha) (validProof T sha) l := validChain_arr (world T sha W) l

/-- **C151** (partial). `valid_chain` accepts two chains, whose first blocks do not carry a text of 64 characters as `previous_hash` (the first block
a node makes carries `"1"`). If the last blocks have the same hash, then the chains are the same, block by block, or two blocks in
them have different texts with the same SHA-256. Missing: the condition on the first blocks, without which it is false
(`C151_suffix_refuted`). -/
theorem C151_commits_partial (T : Texts N) (hn : NumberTexts T.dump) (sha : Bytes → Digest) (W : World N) (l l' : List (Json N)) (a a' b b' : Json N)
    (hv : validChain (world T sha W) (.arr l) = .ok true) (hv' : validChain (world T sha W) (.arr l') = .ok true)
    (ha : l.head? = some a) (ha' : l'.head? = some a') (hg : ∀ s, HasKey a "previous_hash" (.str s) → s.length ≠ 64)
    (hg' : ∀ s, HasKey a' "previous_hash" (.str s) → s.length ≠ 64) (hb : l.getLast? = some b) (hb' : l'.getLast? = some b')
    (he : blockHash T sha b = blockHash T sha b') :
    List.Forall₂ Same l l' ∨ ∃ x ∈ l ++ l', ∃ y ∈ l ++ l', dumps T.dump x ≠ dumps T.dump y ∧ sha (dumps T.dump x) = sha (dumps T.dump y) :=
  chain_of_hash T sha hn l l' a a' b b' ha ha' hb hb' ((validChain_world T sha W l).1 hv).2 ((validChain_world T sha W l').1 hv').2 hg hg' he

/-- **C151** (any first block, partial). Without a condition on the first blocks, one of the chains is the end of the other, or two
blocks have different texts with the same SHA-256. -/
theorem C151_suffix_partial (T : Texts N) (hn : NumberTexts T.dump) (sha : Bytes → Digest) (W : World N) (l l' : List (Json N)) (b b' : Json N)
    (hv : validChain (world T sha W) (.arr l) = .ok true) (hv' : validChain (world T sha W) (.arr l') = .ok true)
    (hb : l.getLast? = some b) (hb' : l'.getLast? = some b') (he : blockHash T sha b = blockHash T sha b') :
    (∃ s, s <:+ l ∧ List.Forall₂ Same s l') ∨ (∃ s, s <:+ l' ∧ List.Forall₂ Same l s) ∨
      ∃ x ∈ l ++ l', ∃ y ∈ l ++ l', dumps T.dump x ≠ dumps T.dump y ∧ sha (dumps T.dump x) = sha (dumps T.dump y) := by
  obtain ⟨m, rfl⟩ := List.getLast?_eq_some_iff.1 hb
  obtain ⟨m', rfl⟩ := List.getLast?_eq_some_iff.1 hb'
  exact suffix_of_hash T sha hn m.length m m' b b' le_rfl ((validChain_world T sha W _).1 hv).2 ((validChain_world T sha W _).1 hv').2 he

/-- **C151** (refuted). Whatever SHA-256 does: if `valid_chain` accepts a chain of two blocks or more, it accepts the chain without its first block,
which has the same last block, so the same last hash. -/
theorem C151_suffix_refuted (T : Texts N) (sha : Bytes → Digest) (W : World N) (a b : Json N) (l : List (Json N))
    (hv : validChain (world T sha W) (.arr (a :: b :: l)) = .ok true) :
    validChain (world T sha W) (.arr (b :: l)) = .ok true ∧ (b :: l).getLast? = (a :: b :: l).getLast? := by
  refine ⟨(validChain_world T sha W _).2 ⟨by simp, fun i hi => ?_⟩, by simp [List.getLast?_cons_cons]⟩
  exact ((validChain_world T sha W _).1 hv).2 (i + 1) (by simpa using hi)

/-- **C151** (provers, partial). A program calls a random hash function at most `q` times and gives two chains, of at most `r` blocks together, with
blocks whose texts have at most `n` bytes. The probability that `valid_chain` accepts both, that they begin as in `C151_commits_partial` and end in blocks
with the same hash, but are not the same, is at most `m (m - 1) / 2^257`, where `m = q + r`. -/
theorem C151_prover_partial (T : Texts N) (hn : NumberTexts T.dump) (W : World N) (n q r : Nat) (other : Bytes → Digest)
    (prover : Prog (List (Json N) × List (Json N))) (hq : ∀ H : Short n → Digest, (prover.asked (drawn H other)).length ≤ q) :
    fraction (fun H : Short n → Digest =>
      let l := (prover.run (drawn H other)).1
      let l' := (prover.run (drawn H other)).2
      l.length + l'.length ≤ r ∧ (∀ b ∈ l ++ l', (dumps T.dump b).length ≤ n) ∧
      validChain (world T (drawn H other) W) (.arr l) = .ok true ∧ validChain (world T (drawn H other) W) (.arr l') = .ok true ∧
      (∀ a, l.head? = some a ∨ l'.head? = some a → ∀ s, HasKey a "previous_hash" (.str s) → s.length ≠ 64) ∧
      (∃ b b', l.getLast? = some b ∧ l'.getLast? = some b' ∧ blockHash T (drawn H other) b = blockHash T (drawn H other) b') ∧
      ¬ List.Forall₂ Same l l') ≤ ((q + r : ℕ) * ((q + r : ℕ) - 1) : ℚ) / 2 ^ 257 := by
  classical
  refine prog_collision n (q + r) other
    (bind prover fun o => if o.1.length + o.2.length ≤ r then askAll ((o.1 ++ o.2).map (dumps T.dump)) else .done ()) ?_ _ ?_
  · intro H
    rw [asked_bind, List.length_append]
    refine Nat.add_le_add (hq H) ?_
    split
    · rw [askAll_asked]
      simpa
    · simp [Prog.asked]
  · rintro H ⟨h1, h2, hv, hv', hg, ⟨b, b', hb, hb', he⟩, hne⟩
    obtain ⟨a, ha⟩ : ∃ a, (prover.run (drawn H other)).1.head? = some a := by
      cases e : (prover.run (drawn H other)).1 with
      | nil => rw [e] at hb; simp at hb
      | cons a l => exact ⟨a, rfl⟩
    obtain ⟨a', ha'⟩ : ∃ a, (prover.run (drawn H other)).2.head? = some a := by
      cases e : (prover.run (drawn H other)).2 with
      | nil => rw [e] at hb'; simp at hb'
      | cons a l => exact ⟨a, rfl⟩
    rcases C151_commits_partial T hn (drawn H other) W _ _ a a' b b' hv hv' ha ha' (hg a (.inl ha)) (hg a' (.inr ha')) hb hb' he with h | ⟨x, hx, y, hy, h⟩
    · exact absurd h hne
    · have hmem : ∀ x ∈ (prover.run (drawn H other)).1 ++ (prover.run (drawn H other)).2, dumps T.dump x ∈
          (bind prover fun o => if o.1.length + o.2.length ≤ r then askAll ((o.1 ++ o.2).map (dumps T.dump)) else .done ()).asked (drawn H other) := by
        intro x hx
        rw [asked_bind, List.mem_append, if_pos h1, askAll_asked]
        exact .inr (List.mem_map.2 ⟨x, hx, rfl⟩)
      exact ⟨_, hmem x hx, _, hmem y hy, h2 x hx, h2 y hy, h⟩

/-! ### C152 -/

/-- Proof of work fails within `t` attempts exactly when the first `t` numbers are no proofs. -/
theorem proofOfWork_diverge (W : World N) (t : Nat) (b p : Json N) (hp : HasKey b "proof" p) :
    proofOfWork W t b = .error .diverge ↔ ∀ i < t, W.vp p (.num (W.ofNat i)) (W.hash b) = false := by
  obtain ⟨d, rfl, hd⟩ := hp
  have e : proofOfWork W t (.obj d) = powLoop W p (W.hash (.obj d)) t 0 := by simp [proofOfWork, Json.key, hd, Bind.bind, Except.bind]
  rw [e]
  rcases powLoop_least W p (W.hash (.obj d)) t 0 with ⟨g1, g2⟩ | ⟨k, hk, g1, g2, g3⟩
  · exact ⟨fun _ i hi => by simpa using g2 i hi, fun _ => g1⟩
  · refine ⟨fun h => ?_, fun h => ?_⟩
    · rw [g1] at h; cases h
    · have := h k hk
      rw [Nat.zero_add] at g2
      rw [this] at g2
      cases g2

/-- Proof of work gives `k` exactly when `k` is the first proof. -/
theorem proofOfWork_ok (W : World N) (t k : Nat) (hk : k < t) (b p : Json N) (hp : HasKey b "proof" p) :
    proofOfWork W t b = .ok k ↔ proofOfWork W k b = .error .diverge ∧ ¬ proofOfWork W (k + 1) b = .error .diverge := by
  rw [proofOfWork_diverge W k b p hp, proofOfWork_diverge W (k + 1) b p hp]
  obtain ⟨d, rfl, hd⟩ := hp
  have e : proofOfWork W t (.obj d) = powLoop W p (W.hash (.obj d)) t 0 := by simp [proofOfWork, Json.key, hd, Bind.bind, Except.bind]
  rw [e]
  rcases powLoop_least W p (W.hash (.obj d)) t 0 with ⟨g1, g2⟩ | ⟨j, hj, g1, g2, g3⟩
  · refine ⟨fun h => ?_, fun h => absurd (fun i hi => by simpa using g2 i (by omega)) h.2⟩
    rw [g1] at h; cases h
  · simp only [Nat.zero_add] at g1 g2 g3
    refine ⟨fun h => ?_, fun h => ?_⟩
    · rw [g1] at h
      cases h
      exact ⟨g3, fun h => by rw [h k (by omega)] at g2; cases g2⟩
    · have : j = k := by
        by_contra hne
        rcases Nat.lt_or_gt_of_ne hne with hl | hl
        · rw [h.1 j hl] at g2; cases g2
        · exact h.2 fun i hi => g3 i (by omega)
      rw [g1, this]

theorem power_ratio {g t u v : Nat} (hg : 0 < g) (hv : 0 < v) (h : u * (g * 65536) ^ t = (g * 65536 - g) ^ t * v) : (u : ℚ) / v = (65535 / 65536 : ℚ) ^ t := by
  rw [show g * 65536 - g = g * 65535 by omega, mul_pow, mul_pow] at h
  have h : u * 65536 ^ t = 65535 ^ t * v := Nat.eq_of_mul_eq_mul_left (pow_pos hg t) (by rw [← mul_assoc, ← mul_assoc, mul_comm _ u, mul_assoc u]; exact h)
  rw [div_pow, div_eq_div_iff (by exact_mod_cast hv.ne') (by positivity)]
  exact_mod_cast h

/-- **C152** (attempts). `proof_of_work` looks for a proof after a block whose proof is written as a string that does not begin with `{`, numbers being written as different
strings. SHA-256 is drawn at random among the functions from strings of at most `n` bytes to digests, `n` being large enough for the
strings that are hashed. The probability that no proof is found in the first `t` attempts is `(65535/65536)^t`. -/
theorem C152_attempts (T : Texts N) (W : World N) (n t : Nat) (other : Bytes → Digest) (b p : Json N) (c : UInt8) (cs : Bytes) (hp : HasKey b "proof" p)
    (hc : T.str p = c :: cs) (hc' : c ≠ 123) (hinj : ∀ i j, T.str (.num (W.ofNat i)) = T.str (.num (W.ofNat j)) → i = j)
    (hb : (dumps T.dump b).length ≤ n) (hl : ∀ i < t, (T.str p).length + (T.str (.num (W.ofNat i))).length + 64 ≤ n) :
    fraction (fun H : Short n → Digest => proofOfWork (world T (drawn H other) W) t b = .error .diverge) = (65535 / 65536 : ℚ) ^ t := by
  classical
  have : Nonempty Digest := ⟨other []⟩
  have hlen : ∀ (y : Digest) (i : Fin t), (guess T p (.num (W.ofNat i)) (hexdigest y)).length ≤ n := by
    intro y i
    rw [guess, List.length_append, List.length_append, utf8_hexdigest_length]
    exact hl i i.2
  have hd : ∃ t, dumps T.dump b = 123 :: t := by
    obtain ⟨d, rfl, _⟩ := hp
    exact ⟨_, by rw [dumps, objText]⟩
  have key := attempts goodSet (⟨dumps T.dump b, hb⟩ : Short n) t (fun y i => ⟨guess T p (.num (W.ofNat i)) (hexdigest y), hlen y i⟩)
    (fun y i j h => Fin.ext (hinj _ _ (List.append_cancel_left (guess_inj T (Subtype.mk.inj h)).2))) (fun y i h => by
      obtain ⟨u, hu⟩ := hd
      have := Subtype.mk.inj h
      rw [hu, guess, hc, List.cons_append, List.cons_append] at this
      exact hc' (List.cons.inj this).1)
  have hev : ∀ H : Short n → Digest, proofOfWork (world T (drawn H other) W) t b = .error .diverge ↔
      ∀ i : Fin t, H ⟨guess T p (.num (W.ofNat i)) (hexdigest (H ⟨dumps T.dump b, hb⟩)), hlen _ i⟩ ∉ goodSet := by
    intro H
    rw [proofOfWork_diverge _ t b p hp]
    have e : ∀ i : Fin t, (world T (drawn H other) W).vp p (.num ((world T (drawn H other) W).ofNat i)) ((world T (drawn H other) W).hash b) = false ↔
        H ⟨guess T p (.num (W.ofNat i)) (hexdigest (H ⟨dumps T.dump b, hb⟩)), hlen _ i⟩ ∉ goodSet := by
      intro i
      have e1 : (world T (drawn H other) W).hash b = hexdigest (H ⟨dumps T.dump b, hb⟩) := by
        show hexdigest (drawn H other (dumps T.dump b)) = _
        rw [drawn, dif_pos hb]
      rw [e1, ← Bool.not_eq_true]
      show ¬ validProof T (drawn H other) p (.num (W.ofNat i)) _ = true ↔ _
      rw [validProof_iff, drawn, dif_pos (hlen _ i)]
      simp [goodSet]
    exact ⟨fun h i => (e i).1 (h i i.2), fun h i hi => (e ⟨i, hi⟩).2 (h ⟨i, hi⟩)⟩
  have hD : 0 < Fintype.card (Short n → Digest) := Fintype.card_pos_iff.2 ⟨fun x => other x.1⟩
  have hcard : Fintype.card Digest = goodSet.card * 65536 := by rw [card_good, Sampling.card_digest]
  have hpos : 0 < goodSet.card := by
    have : 0 < Fintype.card Digest := Fintype.card_pos
    rw [hcard] at this
    exact Nat.pos_of_mul_pos_right this
  have hf : (Finset.univ.filter fun H : Short n → Digest => proofOfWork (world T (drawn H other) W) t b = .error .diverge).card =
      (Finset.univ.filter fun H : Short n → Digest => ∀ i : Fin t, H ⟨guess T p (.num (W.ofNat i)) (hexdigest (H ⟨dumps T.dump b, hb⟩)), hlen _ i⟩ ∉ goodSet).card :=
    congrArg Finset.card (Finset.filter_congr fun H _ => hev H)
  rw [Sampling.fraction_eq, hf]
  rw [hcard] at key
  generalize (Finset.univ.filter fun H : Short n → Digest => ∀ i : Fin t, H ⟨guess T p (.num (W.ofNat i)) (hexdigest (H ⟨dumps T.dump b, hb⟩)), hlen _ i⟩ ∉ goodSet).card = u at key ⊢
  generalize goodSet.card = g at key hpos
  generalize Fintype.card (Short n → Digest) = v at key hD ⊢
  exact power_ratio hpos hD key

/-- **C152** (distribution). Under the same conditions, the probability that `proof_of_work` returns `k` is `(65535/65536)^k / 65536`: one attempt in 65536 is
expected to succeed. -/
theorem C152_distribution (T : Texts N) (W : World N) (n t k : Nat) (hk : k < t) (other : Bytes → Digest) (b p : Json N) (c : UInt8) (cs : Bytes)
    (hp : HasKey b "proof" p) (hc : T.str p = c :: cs) (hc' : c ≠ 123) (hinj : ∀ i j, T.str (.num (W.ofNat i)) = T.str (.num (W.ofNat j)) → i = j)
    (hb : (dumps T.dump b).length ≤ n) (hl : ∀ i < t, (T.str p).length + (T.str (.num (W.ofNat i))).length + 64 ≤ n) :
    fraction (fun H : Short n → Digest => proofOfWork (world T (drawn H other) W) t b = .ok k) = (65535 / 65536 : ℚ) ^ k * (1 / 65536) := by
  classical
  have h1 := C152_attempts T W n k other b p c cs hp hc hc' hinj hb fun i hi => hl i (by omega)
  have h2 := C152_attempts T W n (k + 1) other b p c cs hp hc hc' hinj hb fun i hi => hl i (by omega)
  have h3 : fraction (fun H : Short n → Digest => proofOfWork (world T (drawn H other) W) t b = .ok k) +
      fraction (fun H : Short n → Digest => proofOfWork (world T (drawn H other) W) (k + 1) b = .error .diverge) =
      fraction (fun H : Short n → Digest => proofOfWork (world T (drawn H other) W) k b = .error .diverge) := by
    rw [Sampling.fraction_eq, Sampling.fraction_eq, Sampling.fraction_eq, ← add_div, ← Nat.cast_add, ← Finset.card_union_of_disjoint]
    · congr 3
      ext H
      simp only [Finset.mem_union, Finset.mem_filter, Finset.mem_univ, true_and]
      rw [proofOfWork_ok _ t k hk b p hp]
      constructor
      · rintro (h | h)
        · exact h.1
        · rw [proofOfWork_diverge _ _ b p hp] at h ⊢
          exact fun i hi => h i (by omega)
      · intro h
        by_cases h' : proofOfWork (world T (drawn H other) W) (k + 1) b = .error .diverge
        · exact .inr h'
        · exact .inl ⟨h, h'⟩
    · rw [Finset.disjoint_filter]
      intro H _ h
      exact ((proofOfWork_ok _ t k hk b p hp).1 h).2
  rw [h1, h2] at h3
  rw [eq_sub_of_add_eq h3, pow_succ]
  ring

theorem mem_good {d : Digest} : d ∈ goodSet ↔ Good d := by simp [goodSet]

theorem guess_good (T : Texts N) (sha : Bytes → Digest) (l : List (Json N)) (h : Links (blockHash T sha) (validProof T sha) l) (i : Nat) (hi : i + 1 < l.length) :
    Good (sha (guess T (proofOf l[i]) (proofOf l[i + 1]) (blockHash T sha l[i]))) := by
  obtain ⟨_, p, r, hp, hr, h⟩ := h i hi
  rw [proofOf_eq hp, proofOf_eq hr]
  exact (validProof_iff T sha p r _).1 h

/-- **C152** (forgery). A program calls a random hash function at most `q` times and gives a chain, with texts of at most `n` bytes. The probability that
`valid_chain` accepts it, that its first block does not carry a text of 64 characters as `previous_hash`, and that it has at least `k` blocks after the
first one, is at most `binomial(m, k) / 65536^k + m (m - 1) / 2^257`, where `m = q + 2 k + 1`. -/
theorem C152_forgery (T : Texts N) (hn : NumberTexts T.dump) (W : World N) (n q k : Nat) (other : Bytes → Digest) (prover : Prog (List (Json N)))
    (hq : ∀ H : Short n → Digest, (prover.asked (drawn H other)).length ≤ q) :
    fraction (fun H : Short n → Digest =>
      let l := prover.run (drawn H other)
      k + 1 ≤ l.length ∧ (∀ b ∈ l, (dumps T.dump b).length ≤ n ∧ ∀ p, HasKey b "proof" p → 2 * (T.str p).length + 64 ≤ n) ∧
      (∀ a, l.head? = some a → ∀ s, HasKey a "previous_hash" (.str s) → s.length ≠ 64) ∧
      validChain (world T (drawn H other) W) (.arr l) = .ok true) ≤
      ((q + 2 * k + 1).choose k : ℚ) * (1 / 65536) ^ k + ((q + 2 * k + 1 : ℕ) * ((q + 2 * k + 1 : ℕ) - 1) : ℚ) / 2 ^ 257 := by
  classical
  let prog : Prog Unit := bind prover fun l => checkProg T (l.take (k + 1))
  have hm : ∀ H : Short n → Digest, (prog.asked (drawn H other)).length ≤ q + 2 * k + 1 := by
    intro H
    rw [asked_bind, List.length_append]
    have h1 := checkProg_length T (drawn H other) ((prover.run (drawn H other)).take (k + 1))
    have h2 := hq H
    rw [List.length_take] at h1
    omega
  let found : (Short n → Digest) → Prop := fun H => ∃ xs : List Bytes, xs.Nodup ∧ k ≤ xs.length ∧
    ∀ x ∈ xs, x ∈ prog.asked (drawn H other) ∧ x.length ≤ n ∧ drawn H other x ∈ goodSet
  let collided : (Short n → Digest) → Prop := fun H => ∃ a ∈ prog.asked (drawn H other), ∃ b ∈ prog.asked (drawn H other),
    a.length ≤ n ∧ b.length ≤ n ∧ a ≠ b ∧ drawn H other a = drawn H other b
  have h1 : fraction found ≤ ((q + 2 * k + 1).choose k : ℚ) * (1 / 65536) ^ k := by
    have := prog_found n (q + 2 * k + 1) k other goodSet prog hm found fun H h => h
    rwa [good_fraction] at this
  have h2 : fraction collided ≤ ((q + 2 * k + 1 : ℕ) * ((q + 2 * k + 1 : ℕ) - 1) : ℚ) / 2 ^ 257 :=
    prog_collision n (q + 2 * k + 1) other prog hm collided fun H h => h
  refine le_trans (Sampling.fraction_mono (Q := fun H => found H ∨ collided H) ?_) (le_trans (fraction_or _ _) (add_le_add h1 h2))
  rintro H ⟨hk, hs, hg, hv⟩
  obtain ⟨sha, hsha⟩ : ∃ sha, sha = drawn H other := ⟨_, rfl⟩
  rw [← hsha] at hk hs hg hv
  obtain ⟨l, hl⟩ : ∃ l, l = (prover.run sha).take (k + 1) := ⟨_, rfl⟩
  have hlen : l.length = k + 1 := by rw [hl, List.length_take]; omega
  have hlinks : Links (blockHash T sha) (validProof T sha) l := hl ▸ links_take ((validChain_world T sha W _).1 hv).2 _
  have hs' : ∀ b ∈ l, (dumps T.dump b).length ≤ n ∧ ∀ p, HasKey b "proof" p → 2 * (T.str p).length + 64 ≤ n := fun b hb => hs b (List.mem_of_mem_take (hl ▸ hb))
  obtain ⟨a, ha⟩ : ∃ a, l.head? = some a := by
    cases e : l with
    | nil => rw [e] at hlen; simp at hlen
    | cons a l => exact ⟨a, rfl⟩
  have hga : ∀ s, HasKey a "previous_hash" (.str s) → s.length ≠ 64 := hg a (by
    rw [← ha, hl]
    cases prover.run sha <;> simp)
  have hin : ∀ x, x ∈ (checkProg T l).asked sha → x ∈ prog.asked (drawn H other) := by
    intro x hx
    rw [← hsha, asked_bind, List.mem_append, ← hl]
    exact .inr hx
  by_cases hcl : Clash T sha l
  · obtain ⟨x, hx, y, hy, h⟩ := hcl
    exact .inr ⟨_, hin _ (checkProg_block T sha l x hx), _, hin _ (checkProg_block T sha l y hy), (hs' x hx).1, (hs' y hy).1, h.1, hsha ▸ h.2⟩
  · refine .inl ⟨List.ofFn fun i : Fin k => guess T (proofOf l[i.1]) (proofOf l[i.1 + 1]) (blockHash T sha l[i.1]), ?_, by simp, ?_⟩
    · refine List.nodup_ofFn.2 fun i j hij => ?_
      have e := (guess_inj T hij).1
      rcases hashes_differ T sha hn l a ha hlinks hga i j (by omega) (by omega) (congrArg hexdigest e) with h | h
      · exact Fin.ext h
      · exact absurd h hcl
    · intro x hx
      obtain ⟨i, rfl⟩ := List.mem_ofFn.1 hx
      have hi : i.1 + 1 < l.length := by omega
      refine ⟨hin _ (checkProg_guess T sha l i hi), ?_, ?_⟩
      · obtain ⟨_, p, r, hp, hr, _⟩ := hlinks i hi
        have := (hs' l[i.1] (List.getElem_mem _)).2 p hp
        have := (hs' l[i.1 + 1] (List.getElem_mem _)).2 r hr
        rw [proofOf_eq hp, proofOf_eq hr, guess, List.length_append, List.length_append, blockHash, utf8_hexdigest_length]
        omega
      · rw [← hsha, mem_good]
        exact guess_good T sha l hlinks i hi

/-! ### Cases -/

/-- Ints as numbers; addresses are not looked at. -/
def intWorld : World Int where
  ofNat := fun n => n
  lt := fun a b => decide (a < b)
  succ := fun a => a + 1
  hash := fun _ => ""
  vp := fun _ _ _ => false
  parse := fun _ => .error .valueError

/-- The first block of a node started at time 7. -/
def firstBlock : Json Int := block intWorld 1 7 [] (.num 100) "1"

/-- A hash function with four leading zeros on every string: the digest is the length of the string. -/
def lengthHash (x : Bytes) : Digest := ⟨List.replicate 31 0 ++ [UInt8.ofNat x.length], by simp⟩

/-- A second block, for that hash function. -/
def secondBlock (time : Int) : Json Int := block intWorld 2 time [reward intWorld "me"] (.num 0) (blockHash intTexts lengthHash firstBlock)

/-- The text of the first block. -/
example : dumps intText firstBlock = "{\"index\": 1, \"previous_hash\": \"1\", \"proof\": 100, \"timestamp\": 7, \"transactions\": []}".toUTF8.toList := by
  decide +kernel

/-- This meets the hypotheses of `C150_text`, in which both cases occur: the same dictionary in two orders, and two different strings. -/
example : NumberTexts intText ∧ dumps intText (.obj [("a", .num 1), ("b", .num (-2))]) = dumps intText (.obj [("b", .num (-2)), ("a", .num 1)]) ∧
    dumps intText (.str "é") ≠ dumps intText (.str "e") := ⟨intText_ok, by decide +kernel, by decide +kernel⟩

/-- `C150_guess_refuted` in a case where the proofs are accepted. -/
example : validProof intTexts lengthHash (.num 1) (.num 23) (hexdigest (lengthHash [1])) = true ∧
    validProof intTexts lengthHash (.num 12) (.num 3) (hexdigest (lengthHash [1])) = true :=
  have h : validProof intTexts lengthHash (.num 1) (.num 23) (hexdigest (lengthHash [1])) = true := by decide +kernel
  ⟨h, by rw [← C150_guess_refuted]; exact h⟩

/-- This meets the hypotheses of `C150_hash`. -/
example : NumberTexts intTexts.dump := intText_ok

/-- This meets the hypotheses of `C151_commits_partial`: two chains of two blocks, the first blocks in different orders, with the same last hash. -/
example : let first : Json Int := .obj [("proof", .num 100), ("previous_hash", .str "1"), ("transactions", .arr []), ("timestamp", .num 7), ("index", .num 1)]
    NumberTexts intTexts.dump ∧
    validChain (world intTexts lengthHash intWorld) (.arr [firstBlock, secondBlock 9]) = .ok true ∧
    validChain (world intTexts lengthHash intWorld) (.arr [first, secondBlock 9]) = .ok true ∧
    (∀ s, HasKey firstBlock "previous_hash" (.str s) → s.length ≠ 64) ∧ ∀ s, HasKey first "previous_hash" (.str s) → s.length ≠ 64 := by
  refine ⟨intText_ok, by decide +kernel, by decide +kernel, ?_, ?_⟩
  · rintro s ⟨d, hd, h⟩
    cases hd
    have : s = "1" := by simpa [List.lookup] using h.symm
    rw [this]
    decide
  · rintro s ⟨d, hd, h⟩
    cases hd
    have : s = "1" := by simpa [List.lookup] using h.symm
    rw [this]
    decide

/-- The other case of `C151_commits_partial`: with a hash function that is not collision resistant there are two chains with the same last hash. -/
example : validChain (world intTexts lengthHash intWorld) (.arr [firstBlock, secondBlock 9]) = .ok true ∧
    validChain (world intTexts lengthHash intWorld) (.arr [firstBlock, secondBlock 8]) = .ok true ∧
    blockHash intTexts lengthHash (secondBlock 9) = blockHash intTexts lengthHash (secondBlock 8) ∧
    dumps intText (secondBlock 9) ≠ dumps intText (secondBlock 8) := by
  refine ⟨by decide +kernel, by decide +kernel, by decide +kernel, by decide +kernel⟩

/-- This meets the hypotheses of `C151_suffix_partial` and of `C151_suffix_refuted`: a chain of two blocks, and the chain of its second block. -/
example : validChain (world intTexts lengthHash intWorld) (.arr [firstBlock, secondBlock 9]) = .ok true ∧
    validChain (world intTexts lengthHash intWorld) (.arr [secondBlock 9]) = .ok true :=
  have h : validChain (world intTexts lengthHash intWorld) (.arr [firstBlock, secondBlock 9]) = .ok true := by decide +kernel
  ⟨h, (C151_suffix_refuted intTexts lengthHash intWorld _ _ [] h).1⟩

/-- A miner who makes one attempt, with the proof 0. -/
def oneAttempt : Prog (List (Json Int)) :=
  .ask (dumps intText firstBlock) fun d => .ask (guess intTexts (.num 100) (.num 0) (hexdigest d)) fun _ =>
    .done [firstBlock, block intWorld 2 9 [reward intWorld "me"] (.num 0) (hexdigest d)]

/-- This meets the hypotheses of `C151_prover_partial`: two calls, and two chains that are accepted for some hash function. -/
example : NumberTexts intTexts.dump ∧ ∃ prover : Prog (List (Json Int) × List (Json Int)), (∀ h, (prover.asked h).length ≤ 2) ∧
    validChain (world intTexts lengthHash intWorld) (.arr (prover.run lengthHash).1) = .ok true ∧
    validChain (world intTexts lengthHash intWorld) (.arr (prover.run lengthHash).2) = .ok true := by
  refine ⟨intText_ok, bind oneAttempt fun l => .done (l, [firstBlock, secondBlock 8]), fun h => by simp [asked_bind, oneAttempt, Prog.asked], ?_, ?_⟩
  · rw [run_bind]
    exact (show validChain (world intTexts lengthHash intWorld) (.arr (oneAttempt.run lengthHash)) = .ok true by decide +kernel)
  · rw [run_bind]
    exact (show validChain (world intTexts lengthHash intWorld) (.arr [firstBlock, secondBlock 8]) = .ok true by decide +kernel)

/-- This meets the hypotheses of `C152_attempts` and `C152_distribution`: 1000 attempts after the first block of a node. -/
example : ∃ c cs, HasKey firstBlock "proof" (.num 100) ∧ intTexts.str (.num 100) = c :: cs ∧ c ≠ 123 ∧
    (∀ i j : Nat, intTexts.str (.num (intWorld.ofNat i)) = intTexts.str (.num (intWorld.ofNat j)) → i = j) ∧
    (dumps intTexts.dump firstBlock).length ≤ 200 ∧
    ∀ i < 1000, (intTexts.str (.num 100)).length + (intTexts.str (.num (intWorld.ofNat i))).length + 64 ≤ 200 :=
  ⟨49, [48, 48], ⟨_, rfl, rfl⟩, by decide +kernel, by decide, fun i j h => Int.ofNat.inj (intText_ok.inj _ _ h), by decide +kernel, by decide +kernel⟩

/-- This meets the hypotheses of `C152_forgery`: two calls, and a chain that is accepted for some hash function. -/
example : NumberTexts intTexts.dump ∧ (∀ h, (oneAttempt.asked h).length ≤ 2) ∧
    validChain (world intTexts lengthHash intWorld) (.arr (oneAttempt.run lengthHash)) = .ok true ∧ (oneAttempt.run lengthHash).length = 2 :=
  ⟨intText_ok, fun h => by simp [oneAttempt, Prog.asked], by decide +kernel, by decide +kernel⟩

/-- The bound is small: ten blocks with a thousand calls. -/
example : ((1000 + 2 * 10 + 1 : ℕ).choose 10 : ℚ) * (1 / 65536) ^ 10 + ((1000 + 2 * 10 + 1 : ℕ) * ((1000 + 2 * 10 + 1 : ℕ) - 1) : ℚ) / 2 ^ 257 ≤ 1 / 2 ^ 80 := by
  have h : ((1000 + 2 * 10 + 1 : ℕ).choose 10 : ℚ) ≤ (1000 + 2 * 10 + 1 : ℕ) ^ 10 / (Nat.factorial 10 : ℕ) := Nat.choose_le_pow_div 10 _
  refine le_trans (add_le_add_left (mul_le_mul_of_nonneg_right h (by positivity)) _) ?_
  rw [show (2 : ℚ) ^ 257 = 2 ^ 128 * 2 ^ 129 by rw [← pow_add]]
  norm_num [Nat.factorial]

end Verif.Props
