import Verif.Proofs.Rewriting
import Verif.Props.ChainHash
/-!
# C156: what it takes to change a block of a chain
-/

namespace Verif.Props
open ChainJson ChainHash Spec Spec.ChainJson Birthday

variable {N : Type}

/-- **C156** (refuted). The last block of a chain is not protected by any work, whatever SHA-256 does: `valid_chain` accepts the chain with any other block in its place, with any transactions
in it, that has the same `proof` and the same `previous_hash`. -/
theorem C156_last_refuted (T : Texts N) (sha : Bytes → Digest) (W : World N) (l : List (Json N)) (b b' p h : Json N)
    (hp : HasKey b "proof" p) (hp' : HasKey b' "proof" p) (hh : HasKey b "previous_hash" h) (hh' : HasKey b' "previous_hash" h)
    (hv : validChain (world T sha W) (.arr (l ++ [b])) = .ok true) : validChain (world T sha W) (.arr (l ++ [b'])) = .ok true := by
  rw [validChain_world] at hv ⊢
  refine ⟨by simp, fun i hi => ?_⟩
  have h := hv.2 i (by simpa using hi)
  have hi0 : i < l.length := by simpa using hi
  have hkey : ∀ {c : Json N} {k : String} {x y : Json N}, HasKey c k x → HasKey c k y → x = y := by
    rintro c k x y ⟨d, rfl, h1⟩ ⟨d', e, h2⟩
    cases e
    exact Option.some.inj (h1.symm.trans h2)
  rw [List.getElem_append_left hi0] at h ⊢
  by_cases hi' : i + 1 < l.length
  · rw [List.getElem_append_left hi'] at h ⊢
    exact h
  · rw [List.getElem_append_right (show l.length ≤ i + 1 by omega)] at h ⊢
    simp only [List.getElem_singleton] at h ⊢
    obtain ⟨h1, r, q, hr, hq, hvp⟩ := h
    rw [hkey hh h1] at hh'
    rw [hkey hp hq] at hp'
    exact ⟨hh', r, q, hr, hp', hvp⟩

/-- **C156** (work, partial). `valid_chain` accepts two chains, whose first blocks do not carry a text of 64 characters as `previous_hash`, and block `j` of the second is not block `j` of the first.
Then the string `valid_proof` hashes for a block of the second chain after block `j` is none of those it hashes for the first, with any proofs, unless two blocks have different texts with the same SHA-256: no
work can be taken over. Missing: block `j` itself, for which it is false (`C156_last_refuted`). -/
theorem C156_work_partial (T : Texts N) (hn : NumberTexts T.dump) (sha : Bytes → Digest) (W : World N) (l l' : List (Json N))
    (hv : validChain (world T sha W) (.arr l) = .ok true) (hv' : validChain (world T sha W) (.arr l') = .ok true)
    (hg : ∀ a, l.head? = some a ∨ l'.head? = some a → ∀ s, HasKey a "previous_hash" (.str s) → s.length ≠ 64)
    (j : Nat) (hj : j < l.length) (hj' : j < l'.length) (hne : ¬ Same l[j] l'[j]) (i t : Nat) (hji : j ≤ i) (hi : i < l'.length) (ht : t < l.length) :
    (∀ p q p' q', guess T p q (blockHash T sha l[t]) ≠ guess T p' q' (blockHash T sha l'[i])) ∨
      ∃ x ∈ l ++ l', ∃ y ∈ l ++ l', dumps T.dump x ≠ dumps T.dump y ∧ sha (dumps T.dump x) = sha (dumps T.dump y) := by
  by_cases he : blockHash T sha l[t] = blockHash T sha l'[i]
  · obtain ⟨a, ha⟩ : ∃ a, l.head? = some a := by
      cases l with
      | nil => simp at hj
      | cons a l => exact ⟨a, rfl⟩
    obtain ⟨a', ha'⟩ : ∃ a, l'.head? = some a := by
      cases l' with
      | nil => simp at hj'
      | cons a l => exact ⟨a, rfl⟩
    exact .inr (hashes_apart T sha hn l l' a a' ha ha' ((validChain_world T sha W l).1 hv).2 ((validChain_world T sha W l').1 hv').2 (hg a (.inl ha)) (hg a' (.inr ha'))
      j hj hj' hne i t hi ht hji he)
  · exact .inl fun p q p' q' e => he (congrArg hexdigest (guess_inj T e).1)

/-- **C156** (attack, partial). A chain `l` has been made and `valid_chain` accepts it; the strings hashed so far and their hashes are given (`Past.Made`), the hashes of all other strings are
random. A program that knows all this calls the hash function at most `q` times more and gives a chain. The probability that `valid_chain` accepts it, that some block `j` of it is not block `j` of `l`, and that
it has at least `k` blocks after that one, is at most `binomial(m, k) / 65536^k + (2 s m + m (m - 1)) / 2^257`, where `m = q + 2 (r + k)`, `r` is the length of `l` and `s` the number of strings hashed so far.
Missing: that block `j` needs a new proof itself, which is false (`C156_last_refuted`). -/
theorem C156_attack_partial (T : Texts N) (hn : NumberTexts T.dump) (W : World N) (n q k : Nat) (other : Bytes → Digest) (P : Past n) (l : List (Json N)) (hP : P.Made T other l)
    (hv : validChain (world T (drawn P.hash other) W) (.arr l) = .ok true) (hg : ∀ a, l.head? = some a → ∀ s, HasKey a "previous_hash" (.str s) → s.length ≠ 64)
    (attacker : Prog (List (Json N))) (hq : ∀ H : P.Future, (attacker.asked (drawn H.1 other)).length ≤ q) :
    fraction (fun H : P.Future =>
      let l' := attacker.run (drawn H.1 other)
      validChain (world T (drawn H.1 other) W) (.arr l') = .ok true ∧ (∃ j, ∃ (h : j < l.length) (h' : j < l'.length), ¬ Same l[j] l'[j] ∧ j + 1 + k ≤ l'.length) ∧
      (∀ a, l'.head? = some a → ∀ s, HasKey a "previous_hash" (.str s) → s.length ≠ 64) ∧
      ∀ b ∈ l', (dumps T.dump b).length ≤ n ∧ ∀ p, HasKey b "proof" p → 2 * (T.str p).length + 64 ≤ n) ≤
      ((q + 2 * (l.length + k)).choose k : ℚ) * (1 / 65536) ^ k +
        (2 * P.known.card * (q + 2 * (l.length + k) : ℕ) + (q + 2 * (l.length + k) : ℕ) * ((q + 2 * (l.length + k) : ℕ) - 1) : ℚ) / 2 ^ 257 := by
  classical
  obtain ⟨m, hm'⟩ : ∃ m, m = q + 2 * (l.length + k) := ⟨_, rfl⟩
  rw [← hm']
  let prog : Prog Unit := bind attacker fun l' => checkProg T (l'.take (l.length + k))
  have hm : ∀ H ∈ cyl P.known P.hash, (prog.asked (drawn H other)).length ≤ m := by
    intro H hH
    rw [asked_bind, List.length_append]
    have h1 := checkProg_length T (drawn H other) ((attacker.run (drawn H other)).take (l.length + k))
    have h2 := hq ⟨H, mem_cyl.1 hH⟩
    rw [List.length_take] at h1
    dsimp only at h2
    omega
  let found : P.Future → Prop := fun H => ∃ xs : List Bytes, xs.Nodup ∧ k ≤ xs.length ∧
    ∀ x ∈ xs, x ∈ prog.asked (drawn H.1 other) ∧ (∃ hx : x.length ≤ n, ⟨x, hx⟩ ∉ P.known) ∧ drawn H.1 other x ∈ goodSet
  let collided : P.Future → Prop := fun H => ∃ a b, ∃ (ha : a.length ≤ n) (hb : b.length ≤ n), (⟨a, ha⟩ ∈ P.known ∨ a ∈ prog.asked (drawn H.1 other)) ∧
      (⟨b, hb⟩ ∈ P.known ∨ b ∈ prog.asked (drawn H.1 other)) ∧ a ≠ b ∧ drawn H.1 other a = drawn H.1 other b
  have h1 : fraction found ≤ (m.choose k : ℚ) * (1 / 65536) ^ k := by
    have := prog_found_cyl n m k other P.known P.hash goodSet prog hm found fun H h => h
    rwa [good_fraction] at this
  have h2 : fraction collided ≤ (2 * P.known.card * m + m * (m - 1) : ℚ) / 2 ^ 257 :=
    prog_collision_cyl n m other P.known P.hash hP.distinct prog hm collided fun H h => h
  refine le_trans (Sampling.fraction_mono (Q := fun H => found H ∨ collided H) ?_) (le_trans (fraction_or _ _) (add_le_add h1 h2))
  rintro H ⟨hv', ⟨j, hj, hj', hne, hk⟩, hg', hs⟩
  obtain ⟨sha, hsha⟩ : ∃ sha, sha = drawn H.1 other := ⟨_, rfl⟩
  -- the hashes of blocks of the first chain are known
  have hsame : ∀ b ∈ l, drawn H.1 other (dumps T.dump b) = drawn P.hash other (dumps T.dump b) := by
    intro b hb
    obtain ⟨h, hh⟩ := hP.texts b hb
    simp only [drawn, h, dif_pos]
    exact H.2 _ hh
  have hknown : ∀ x (hx : x.length ≤ n), ⟨x, hx⟩ ∈ P.known → drawn P.hash other x = drawn H.1 other x := by
    intro x hx hm
    simp only [drawn, hx, dif_pos]
    exact (H.2 _ hm).symm
  have hlinks0 : Links (blockHash T sha) (validProof T (drawn P.hash other)) l := by
    intro i hi
    have := ((validChain_world T (drawn P.hash other) W l).1 hv).2 i hi
    have e : blockHash T sha l[i] = blockHash T (drawn P.hash other) l[i] := by rw [blockHash, blockHash, hsha, hsame _ (List.getElem_mem _)]
    rwa [e]
  rw [← hsha] at hv' hg' hs
  simp only [← hsha] at hj' hne hk
  obtain ⟨l', hl'⟩ : ∃ l', l' = (attacker.run sha).take (l.length + k) := ⟨_, rfl⟩
  have hjl : j < l'.length := by rw [hl', List.length_take]; omega
  have hlen : j + 1 + k ≤ l'.length := by rw [hl', List.length_take]; omega
  have hne : ¬ Same l[j] l'[j] := by
    simp only [hl', List.getElem_take]
    exact hne
  have hlinks : Links (blockHash T sha) (validProof T sha) l' := hl' ▸ links_take ((validChain_world T sha W _).1 hv').2 _
  have hs' : ∀ b ∈ l', (dumps T.dump b).length ≤ n ∧ ∀ p, HasKey b "proof" p → 2 * (T.str p).length + 64 ≤ n := fun b hb => hs b (List.mem_of_mem_take (hl' ▸ hb))
  obtain ⟨a', ha'⟩ : ∃ a, l'.head? = some a := by
    cases e : l' with
    | nil => rw [e] at hjl; simp at hjl
    | cons a l => exact ⟨a, rfl⟩
  obtain ⟨a, ha⟩ : ∃ a, l.head? = some a := by
    cases e : l with
    | nil => rw [e] at hj; simp at hj
    | cons a l => exact ⟨a, rfl⟩
  have hga' : ∀ s, HasKey a' "previous_hash" (.str s) → s.length ≠ 64 := hg' a' (by
    rw [← ha', hl', show l.length + k = (l.length + k - 1) + 1 by omega]
    cases attacker.run sha <;> simp)
  have hin : ∀ x, x ∈ (checkProg T l').asked sha → x ∈ prog.asked (drawn H.1 other) := by
    intro x hx
    rw [← hsha, asked_bind, List.mem_append, ← hl']
    exact .inr hx
  by_cases hcl : Clash T sha (l ++ l')
  · obtain ⟨x, hx, y, hy, h⟩ := hcl
    have hpos : ∀ x ∈ l ++ l', ∃ h : (dumps T.dump x).length ≤ n, ⟨dumps T.dump x, h⟩ ∈ P.known ∨ dumps T.dump x ∈ prog.asked (drawn H.1 other) := by
      intro x hx
      rcases List.mem_append.1 hx with hx | hx
      · obtain ⟨h, hh⟩ := hP.texts x hx
        exact ⟨h, .inl hh⟩
      · exact ⟨(hs' x hx).1, .inr (hin _ (checkProg_block T sha l' x hx))⟩
    obtain ⟨hx1, hx2⟩ := hpos x hx
    obtain ⟨hy1, hy2⟩ := hpos y hy
    exact .inr ⟨_, _, hx1, hy1, hx2, hy2, h.1, hsha ▸ h.2⟩
  · refine .inl ⟨List.ofFn fun i : Fin k => guess T (proofOf l'[j + i.1]) (proofOf l'[j + i.1 + 1]) (blockHash T sha l'[j + i.1]), ?_, by simp, ?_⟩
    · refine List.nodup_ofFn.2 fun i i' hij => ?_
      have e := (guess_inj T hij).1
      rcases hashes_differ T sha hn l' a' ha' hlinks hga' (j + i) (j + i') (by omega) (by omega) (congrArg hexdigest e) with h | h
      · exact Fin.ext (by omega)
      · exact absurd (clash_mono T sha (List.subset_append_right _ _) h) hcl
    · intro x hx
      obtain ⟨i, rfl⟩ := List.mem_ofFn.1 hx
      have hi : j + i.1 + 1 < l'.length := by omega
      have hgood := guess_good T sha l' hlinks (j + i) hi
      have hshort : (guess T (proofOf l'[j + i.1]) (proofOf l'[j + i.1 + 1]) (blockHash T sha l'[j + i.1])).length ≤ n := by
        obtain ⟨_, p, r, hp, hr, _⟩ := hlinks (j + i) hi
        have := (hs' l'[j + i.1] (List.getElem_mem _)).2 p hp
        have := (hs' l'[j + i.1 + 1] (List.getElem_mem _)).2 r hr
        rw [proofOf_eq hp, proofOf_eq hr, guess, List.length_append, List.length_append, blockHash, utf8_hexdigest_length]
        omega
      refine ⟨hin _ (checkProg_guess T sha l' (j + i) hi), ⟨hshort, fun hmem => ?_⟩, ?_⟩
      · obtain ⟨b, hb, he⟩ := hP.work (proofOf l'[j + i.1]) (proofOf l'[j + i.1 + 1]) (sha (dumps T.dump l'[j + i.1])) hshort hmem (by
          rw [validProof_iff]
          have e := hknown _ hshort hmem
          rw [← hsha] at e
          rw [blockHash] at e hgood
          rw [e]
          exact hgood)
        obtain ⟨t, ht, rfl⟩ := List.getElem_of_mem hb
        refine hcl (hashes_apart T sha hn l l' a a' ha ha' hlinks0 hlinks (hg a ha) hga' j hj hjl hne (j + i) t (by omega) ht (by omega) ?_)
        rw [blockHash, hsha, hsame _ (List.getElem_mem _), ← hsha]
        exact he
      · rw [← hsha, mem_good]
        exact hgood

/-! ### Cases -/

/-- This meets the hypotheses of `C156_last_refuted`: the reward goes to somebody else. -/
example : ∃ b b' : Json Int, HasKey b "proof" (.num 0) ∧ HasKey b' "proof" (.num 0) ∧ HasKey b "transactions" (.arr [reward intWorld "me"]) ∧
    HasKey b' "transactions" (.arr [reward intWorld "you"]) ∧ (∃ h, HasKey b "previous_hash" h ∧ HasKey b' "previous_hash" h) ∧
    validChain (world intTexts lengthHash intWorld) (.arr [firstBlock, b]) = .ok true ∧ validChain (world intTexts lengthHash intWorld) (.arr [firstBlock, b']) = .ok true :=
  ⟨secondBlock 9, block intWorld 2 9 [reward intWorld "you"] (.num 0) (blockHash intTexts lengthHash firstBlock), ⟨_, rfl, rfl⟩, ⟨_, rfl, rfl⟩, ⟨_, rfl, rfl⟩, ⟨_, rfl, rfl⟩,
    ⟨_, ⟨_, rfl, rfl⟩, ⟨_, rfl, rfl⟩⟩, by decide +kernel, by decide +kernel⟩

/-- A second block, paying `who`. -/
def payBlock (who : String) : Json Int := block intWorld 2 9 [reward intWorld who] (.num 0) (blockHash intTexts lengthHash firstBlock)
/-- A third block after that one. -/
def thirdBlock (who : String) : Json Int := block intWorld 3 11 [] (.num 5) (blockHash intTexts lengthHash (payBlock who))

/-- This meets the hypotheses of `C156_work_partial`, with `j = 1` and no collision among the five blocks. -/
example : NumberTexts intTexts.dump ∧ validChain (world intTexts lengthHash intWorld) (.arr [firstBlock, payBlock "me", thirdBlock "me"]) = .ok true ∧
    validChain (world intTexts lengthHash intWorld) (.arr [firstBlock, payBlock "you", thirdBlock "you"]) = .ok true ∧ ¬ Same (payBlock "me") (payBlock "you") ∧
    lengthHash (dumps intText (payBlock "me")) ≠ lengthHash (dumps intText (payBlock "you")) := by
  refine ⟨intText_ok, by decide +kernel, by decide +kernel, fun h => ?_, by decide +kernel⟩
  exact absurd ((C150_text intText_ok _ _).2 h) (by decide +kernel)

/-- The strings hashed when the second block was mined, with the proof 0, and both blocks were hashed. -/
def minedStrings : List Bytes := [dumps intText firstBlock, guess intTexts (.num 100) (.num 0) (blockHash intTexts lengthHash firstBlock), dumps intText (payBlock "me")]

/-- These strings, with their lengths as hashes. -/
def minedPast : Past 400 := ⟨(minedStrings.attachWith (·.length ≤ 400) (by decide +kernel)).toFinset, fun x => lengthHash x.1⟩

/-- This meets the hypotheses of `C156_attack_partial`: two blocks have been made, with one proof of work. -/
example : minedPast.Made intTexts lengthHash [firstBlock, payBlock "me"] ∧
    validChain (world intTexts (drawn minedPast.hash lengthHash) intWorld) (.arr [firstBlock, payBlock "me"]) = .ok true := by
  have hd : drawn minedPast.hash lengthHash = lengthHash := by
    funext x
    rw [drawn]
    split <;> rfl
  have hm : ∀ x h, (⟨x, h⟩ : Short 400) ∈ minedPast.known ↔ x ∈ minedStrings := by
    intro x h
    simp [minedPast, List.mem_attachWith]
  have hend : ∀ (A : Bytes) (d : Digest) (B : Bytes), A ++ utf8 (hexdigest d) ≠ B ++ [125] := by
    intro A d B h
    have h1 : (125 : UInt8) ∈ utf8 (hexdigest d) := by
      have h2 := congrArg List.getLast? h
      rw [List.getLast?_append, List.getLast?_concat] at h2
      cases e : (utf8 (hexdigest d)).getLast? with
      | none =>
        have := utf8_hexdigest_length d
        rw [List.getLast?_eq_none_iff.1 e] at this
        simp at this
      | some c =>
        rw [e] at h2
        cases h2
        exact List.mem_of_getLast? e
    rw [utf8_hexdigest, List.mem_flatMap] at h1
    obtain ⟨b, _, hb⟩ := h1
    have : ∀ n < 16, hexDigit n ≠ 125 := by decide +kernel
    have hlt : b.toNat < 256 := b.toNat_lt
    simp only [List.mem_cons, List.not_mem_nil, or_false] at hb
    rcases hb with hb | hb
    · exact this _ (by omega) hb.symm
    · exact this _ (by omega) hb.symm
  refine ⟨⟨?_, ?_, ?_⟩, by rw [hd]; decide +kernel⟩
  · intro b hb
    simp only [List.mem_cons, List.not_mem_nil, or_false] at hb
    rcases hb with rfl | rfl
    · exact ⟨by decide +kernel, (hm _ _).2 (by simp [minedStrings, intTexts])⟩
    · exact ⟨by decide +kernel, (hm _ _).2 (by simp [minedStrings, intTexts])⟩
  · intro x hx y hy h
    have : ∀ x ∈ minedStrings, ∀ y ∈ minedStrings, lengthHash x = lengthHash y → x = y := by decide +kernel
    exact Subtype.ext (this _ ((hm x.1 x.2).1 hx) _ ((hm y.1 y.2).1 hy) h)
  · intro p q d h hk _
    rw [hm] at hk
    simp only [minedStrings, List.mem_cons, List.not_mem_nil, or_false] at hk
    rcases hk with hk | hk | hk
    · exact absurd hk (by rw [firstBlock, block, dumps, objText, ← List.cons_append]; exact hend _ _ _)
    · refine ⟨firstBlock, by simp, ?_⟩
      rw [hd, (guess_inj intTexts hk).1]
      rfl
    · exact absurd hk (by rw [payBlock, block, dumps, objText, ← List.cons_append]; exact hend _ _ _)

/-- The bound is small: six blocks on top, with a thousand calls, on a chain of a hundred blocks. -/
example : ((1000 + 2 * (100 + 6) : ℕ).choose 6 : ℚ) * (1 / 65536) ^ 6 ≤ 1 / 2 ^ 43 := by
  have h : ((1000 + 2 * (100 + 6) : ℕ).choose 6 : ℚ) ≤ (1000 + 2 * (100 + 6) : ℕ) ^ 6 / (Nat.factorial 6 : ℕ) := Nat.choose_le_pow_div 6 _
  refine le_trans (mul_le_mul_of_nonneg_right h (by positivity)) ?_
  norm_num [Nat.factorial]

end Verif.Props
