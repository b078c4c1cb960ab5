import Verif.Proofs.JsonText
import Verif.Proofs.ChainJson
import Verif.Proofs.Birthday
import Std.Data.String.ToNat
/-!
# What the hashes of a chain determine
-/

namespace Verif.ChainHash
open Verif.ChainJson Verif.Spec.ChainJson

/-! ### Integers as texts -/

theorem digit_range {n : Nat} {c : Char} (h : c ∈ Nat.toDigits 10 n) : 48 ≤ c.toNat ∧ c.toNat ≤ 57 := by
  have := Nat.isDigit_of_mem_toDigits (by decide) (by decide) h
  rw [Char.isDigit_iff_toNat] at this
  exact this

theorem digit_byte {n : Nat} {c : UInt8} (h : c ∈ natText n) : 48 ≤ c ∧ c ≤ 57 := by
  obtain ⟨d, hd, rfl⟩ := List.mem_map.1 h
  have := digit_range hd
  rw [UInt8.le_iff_toNat_le, UInt8.le_iff_toNat_le, UInt8.toNat_ofNat', Nat.mod_eq_of_lt (by omega)]
  exact this

theorem map_byte_inj : ∀ l l' : List Char, (∀ c ∈ l, c.toNat < 256) → (∀ c ∈ l', c.toNat < 256) →
    l.map (fun c => UInt8.ofNat c.toNat) = l'.map (fun c => UInt8.ofNat c.toNat) → l = l'
  | [], [], _, _, _ => rfl
  | [], c :: l', _, _, h => by simp at h
  | c :: l, [], _, _, h => by simp at h
  | c :: l, c' :: l', h1, h2, h => by
    simp only [List.map_cons, List.cons.injEq] at h
    rw [Char.toNat_inj.1 (byte_inj (h1 c (by simp)) (h2 c' (by simp)) h.1),
      map_byte_inj l l' (fun d hd => h1 d (by simp [hd])) (fun d hd => h2 d (by simp [hd])) h.2]

theorem natText_inj {n m : Nat} (h : natText n = natText m) : n = m := by
  have := map_byte_inj _ _ (fun c hc => by have := digit_range hc; omega) (fun c hc => by have := digit_range hc; omega) h
  apply Nat.repr_injective
  rw [Nat.repr, Nat.repr, this]

theorem natText_ne (n : Nat) : ∃ c t, natText n = c :: t ∧ 48 ≤ c ∧ c ≤ 57 := by
  cases h : natText n with
  | nil =>
    rw [natText, List.map_eq_nil_iff] at h
    exact absurd h (by simp)
  | cons c t => exact ⟨c, t, rfl, digit_byte (n := n) (by rw [h]; simp)⟩

theorem intText_ok : NumberTexts intText := by
  have minus : ∀ n m, natText n ≠ 45 :: natText m := by
    intro n m h
    have := digit_byte (n := n) (c := 45) (by rw [h]; simp)
    exact absurd this.1 (by decide)
  refine ⟨?_, ?_, ?_⟩
  · rintro (n | n) (m | m) h
    · rw [natText_inj h]
    · exact absurd h (minus _ _)
    · exact absurd h.symm (minus _ _)
    · have := natText_inj (List.cons.inj h).2
      rw [show n = m by omega]
  · rintro (n | n)
    · obtain ⟨c, t, h, h'⟩ := natText_ne n
      exact ⟨c, t, h, .inl h'⟩
    · exact ⟨45, _, rfl, .inr (.inl rfl)⟩
  · have dig : ∀ c : UInt8, 48 ≤ c ∧ c ≤ 57 → c ≠ 44 ∧ c ≠ 93 ∧ c ≠ 125 := by
      rintro c ⟨h1, h2⟩
      refine ⟨?_, ?_, ?_⟩ <;> rintro rfl
      · exact absurd h1 (by decide)
      · exact absurd h2 (by decide)
      · exact absurd h2 (by decide)
    rintro (n | n) c hc
    · exact dig c (digit_byte hc)
    · rcases List.mem_cons.1 hc with rfl | hc
      · decide
      · exact dig c (digit_byte hc)

/-! ### Digests as texts -/

theorem hexChar_inj : ∀ a < 16, ∀ b < 16, Char.ofNat (hexDigit a).toNat = Char.ofNat (hexDigit b).toNat → a = b := by decide +kernel

theorem hexdigest_toList (d : Digest) : (hexdigest d).toList =
    d.1.flatMap fun b => [Char.ofNat (hexDigit (b.toNat / 16)).toNat, Char.ofNat (hexDigit (b.toNat % 16)).toNat] := by
  rw [hexdigest, String.toList_ofList]

theorem pairs_length {α β : Type} (f g : α → β) : ∀ l : List α, (l.flatMap fun b => [f b, g b]).length = 2 * l.length
  | [] => rfl
  | a :: l => by rw [List.flatMap_cons, List.length_append, pairs_length f g l]; simp; omega

theorem hexdigest_length (d : Digest) : (hexdigest d).toList.length = 64 := by
  rw [hexdigest_toList, pairs_length, d.2]

theorem byte_of_halves {a b : UInt8} (h1 : a.toNat / 16 = b.toNat / 16) (h2 : a.toNat % 16 = b.toNat % 16) : a = b :=
  UInt8.toNat_inj.1 (by omega)

theorem pairs_inj {γ : Type} (f : Nat → γ) (hf : ∀ a < 16, ∀ b < 16, f a = f b → a = b) : ∀ l l' : Bytes,
    (l.flatMap fun b => [f (b.toNat / 16), f (b.toNat % 16)]) = (l'.flatMap fun b => [f (b.toNat / 16), f (b.toNat % 16)]) → l = l'
  | [], [], _ => rfl
  | [], b :: l', h => by simp [List.flatMap_cons] at h
  | a :: l, [], h => by simp [List.flatMap_cons] at h
  | a :: l, b :: l', h => by
    simp only [List.flatMap_cons, List.cons_append, List.nil_append, List.cons.injEq] at h
    obtain ⟨h1, h2, h3⟩ := h
    have ha := a.toNat_lt
    have hb := b.toNat_lt
    rw [byte_of_halves (hf _ (by omega) _ (by omega) h1) (hf _ (by omega) _ (by omega) h2), pairs_inj f hf l l' h3]

theorem hexdigest_inj {d d' : Digest} (h : hexdigest d = hexdigest d') : d = d' := by
  have h := congrArg String.toList h
  rw [hexdigest_toList, hexdigest_toList] at h
  exact Subtype.ext (pairs_inj (fun n => Char.ofNat (hexDigit n).toNat) hexChar_inj _ _ h)

theorem utf8_hex : ∀ a < 16, String.utf8EncodeChar (Char.ofNat (hexDigit a).toNat) = [hexDigit a] := by decide +kernel

theorem utf8_hexdigest (d : Digest) : utf8 (hexdigest d) = d.1.flatMap fun b => [hexDigit (b.toNat / 16), hexDigit (b.toNat % 16)] := by
  rw [utf8, hexdigest_toList, List.flatMap_assoc]
  refine List.flatMap_congr fun b _ => ?_
  have hb := b.toNat_lt
  simp [List.flatMap_cons, utf8_hex _ (show b.toNat / 16 < 16 by omega), utf8_hex _ (show b.toNat % 16 < 16 by omega)]

theorem utf8_hexdigest_length (d : Digest) : (utf8 (hexdigest d)).length = 64 := by rw [utf8_hexdigest, pairs_length, d.2]

theorem utf8_hexdigest_inj {d d' : Digest} (h : utf8 (hexdigest d) = utf8 (hexdigest d')) : d = d' := by
  rw [utf8_hexdigest, utf8_hexdigest] at h
  exact Subtype.ext (pairs_inj hexDigit hexDigit_inj _ _ h)

/-- The digests with four leading zeros. -/
def Good (d : Digest) : Prop := (hexdigest d).toList.take 4 = ['0', '0', '0', '0']

instance (d : Digest) : Decidable (Good d) := inferInstanceAs (Decidable (_ = _))

theorem good_iff (d : Digest) : Good d ↔ d.1.take 2 = [0, 0] := by
  obtain ⟨l, hl⟩ := d
  rw [Good, hexdigest_toList]
  match l, hl with
  | a :: b :: l, _ =>
    have z : ∀ n < 16, (Char.ofNat (hexDigit n).toNat = '0' ↔ n = 0) := by decide +kernel
    have ha := a.toNat_lt
    have hb := b.toNat_lt
    simp only [List.flatMap_cons, List.cons_append, List.nil_append, List.take_succ_cons, List.take_zero, List.cons.injEq, and_true,
      z _ (show a.toNat / 16 < 16 by omega), z _ (show a.toNat % 16 < 16 by omega), z _ (show b.toNat / 16 < 16 by omega), z _ (show b.toNat % 16 < 16 by omega)]
    constructor
    · rintro ⟨h1, h2, h3, h4⟩
      exact ⟨UInt8.toNat_inj.1 (by simp; omega), UInt8.toNat_inj.1 (by simp; omega)⟩
    · rintro ⟨rfl, rfl⟩
      decide

variable {N : Type} (T : Texts N) (sha : Bytes → Digest)

theorem validProof_iff (p q : Json N) (h : String) : validProof T sha p q h = true ↔ Good (sha (guess T p q h)) := by
  simp [validProof, Good]

/-! ### Chains -/

/-- Two different texts of blocks of `l` with the same SHA-256. -/
def Clash (l : List (Json N)) : Prop := ∃ a ∈ l, ∃ b ∈ l, dumps T.dump a ≠ dumps T.dump b ∧ sha (dumps T.dump a) = sha (dumps T.dump b)

theorem clash_mono {l l' : List (Json N)} (h : l ⊆ l') : Clash T sha l → Clash T sha l' := by
  rintro ⟨a, ha, b, hb, h1⟩
  exact ⟨a, h ha, b, h hb, h1⟩

theorem same_key {a b : Json N} (h : Same a b) {k : String} {s s' : String} (ha : HasKey a k (.str s)) (hb : HasKey b k (.str s')) : s = s' := by
  obtain ⟨d, rfl, h1⟩ := ha
  obtain ⟨d', rfl, h2⟩ := hb
  cases h with
  | obj _ h =>
    cases h k _ _ h1 h2
    rfl

theorem same_hasKey {a b : Json N} (h : Same a b) {k : String} {s : String} (ha : HasKey a k (.str s)) : HasKey b k (.str s) := by
  obtain ⟨d, rfl, h1⟩ := ha
  cases h with
  | obj hk h =>
    rename_i d'
    have hk := hk k
    rw [h1] at hk
    cases h2 : d'.lookup k with
    | none => rw [h2] at hk; cases hk
    | some v =>
      have := h k _ _ h1 h2
      cases this
      exact ⟨d', rfl, h2⟩

theorem same_symm {a b : Json N} (h : Same a b) : Same b a := by
  induction h with
  | null => exact .null
  | bool b => exact .bool b
  | num n => exact .num n
  | str s => exact .str s
  | arr hl _ ih => exact .arr hl.symm fun i a a' h1 h2 => ih i a' a h2 h1
  | obj hk _ ih => exact .obj (fun k => (hk k).symm) fun k a a' h1 h2 => ih k a' a h2 h1

theorem links_init {l : List (Json N)} {b : Json N} {hash vp} (h : Links hash vp (l ++ [b])) : Links hash vp l := by
  intro i hi
  have := h i (by simp; omega)
  rwa [List.getElem_append_left (by omega), List.getElem_append_left (by omega)] at this

theorem links_last {l : List (Json N)} {c b : Json N} {hash vp} (h : Links hash vp (l ++ [c] ++ [b])) : HasKey b "previous_hash" (.str (hash c)) := by
  have := (h l.length (by simp)).1
  rw [List.getElem_append_right (by simp)] at this
  simpa using this

/-- The last hash determines the chain, as far back as the shorter of the two goes. -/
theorem suffix_of_hash (hn : NumberTexts T.dump) {vp : Json N → Json N → String → Bool} : ∀ (n : Nat) (l l' : List (Json N)) (b b' : Json N), l.length ≤ n →
    Links (blockHash T sha) vp (l ++ [b]) → Links (blockHash T sha) vp (l' ++ [b']) → blockHash T sha b = blockHash T sha b' →
    (∃ s, s <:+ (l ++ [b]) ∧ List.Forall₂ Same s (l' ++ [b'])) ∨ (∃ s, s <:+ (l' ++ [b']) ∧ List.Forall₂ Same (l ++ [b]) s) ∨
      Clash T sha ((l ++ [b]) ++ (l' ++ [b'])) := by
  intro n
  induction n with
  | zero =>
    intro l l' b b' hl h1 h2 he
    by_cases hd : dumps T.dump b = dumps T.dump b'
    · have hs := (dumps_inj hn b b' [] [] (.inl rfl) (.inl rfl) (by simpa using hd)).1
      have : l = [] := List.length_eq_zero_iff.1 (by omega)
      subst this
      exact .inr (.inl ⟨[b'], ⟨l', rfl⟩, .cons hs .nil⟩)
    · exact .inr (.inr ⟨b, by simp, b', by simp, hd, hexdigest_inj he⟩)
  | succ n ih =>
    intro l l' b b' hl h1 h2 he
    by_cases hd : dumps T.dump b = dumps T.dump b'
    · have hs := (dumps_inj hn b b' [] [] (.inl rfl) (.inl rfl) (by simpa using hd)).1
      rcases l.eq_nil_or_concat with rfl | ⟨l, c, rfl⟩
      · exact .inr (.inl ⟨[b'], ⟨l', rfl⟩, .cons hs .nil⟩)
      rcases l'.eq_nil_or_concat with rfl | ⟨l', c', rfl⟩
      · exact .inl ⟨[b], ⟨_, rfl⟩, .cons hs .nil⟩
      simp only [List.concat_eq_append] at *
      have hc : blockHash T sha c = blockHash T sha c' := same_key hs (links_last h1) (links_last h2)
      rcases ih l l' c c' (by simp at hl; omega) (links_init h1) (links_init h2) hc with ⟨s, hs1, hs2⟩ | ⟨s, hs1, hs2⟩ | h
      · refine .inl ⟨s ++ [b], ?_, ?_⟩
        · obtain ⟨t, ht⟩ := hs1
          exact ⟨t, by rw [← List.append_assoc, ht]⟩
        · exact List.rel_append hs2 (.cons hs .nil)
      · refine .inr (.inl ⟨s ++ [b'], ?_, ?_⟩)
        · obtain ⟨t, ht⟩ := hs1
          exact ⟨t, by rw [← List.append_assoc, ht]⟩
        · exact List.rel_append hs2 (.cons hs .nil)
      · refine .inr (.inr (clash_mono T sha (fun x hx => ?_) h))
        simp only [List.mem_append] at hx ⊢
        tauto
    · exact .inr (.inr ⟨b, by simp, b', by simp, hd, hexdigest_inj he⟩)

theorem hexdigest_len (d : Digest) : (hexdigest d).length = 64 := by rw [← String.length_toList, hexdigest_length]

/-- A proper suffix begins with a block that carries a hash. -/
theorem suffix_head {l s : List (Json N)} {a : Json N} {t : List (Json N)} {vp} (h : Links (blockHash T sha) vp l) (hs : s <:+ l) (hne : s ≠ l) (e : s = a :: t) :
    ∃ d, HasKey a "previous_hash" (.str (hexdigest d)) := by
  obtain ⟨u, hu⟩ := hs
  rcases u.eq_nil_or_concat with rfl | ⟨u, c, rfl⟩
  · exact absurd (by simpa using hu) hne
  · subst e
    have := (h u.length (by rw [← hu]; simp)).1
    subst hu
    rw [List.getElem_append_right (by simp)] at this
    exact ⟨_, by simpa [blockHash] using this⟩

/-- The last hash determines the chain, if the first blocks carry no hash. -/
theorem chain_of_hash (hn : NumberTexts T.dump) {vp : Json N → Json N → String → Bool} (l l' : List (Json N)) (a a' b b' : Json N)
    (ha : l.head? = some a) (ha' : l'.head? = some a') (hb : l.getLast? = some b) (hb' : l'.getLast? = some b')
    (h1 : Links (blockHash T sha) vp l) (h2 : Links (blockHash T sha) vp l')
    (hg : ∀ s, HasKey a "previous_hash" (.str s) → s.length ≠ 64) (hg' : ∀ s, HasKey a' "previous_hash" (.str s) → s.length ≠ 64)
    (he : blockHash T sha b = blockHash T sha b') : List.Forall₂ Same l l' ∨ Clash T sha (l ++ l') := by
  obtain ⟨m, rfl⟩ := List.getLast?_eq_some_iff.1 hb
  obtain ⟨m', rfl⟩ := List.getLast?_eq_some_iff.1 hb'
  rcases suffix_of_hash T sha hn m.length m m' b b' le_rfl h1 h2 he with ⟨s, hs1, hs2⟩ | ⟨s, hs1, hs2⟩ | h
  · left
    by_cases hne : s = m ++ [b]
    · exact hne ▸ hs2
    · cases s with
      | nil => cases m' <;> simp at hs2
      | cons x t =>
        obtain ⟨d, hd⟩ := suffix_head T sha h1 hs1 hne rfl
        cases hm : m' ++ [b'] with
        | nil => simp at hm
        | cons y t' =>
          rw [hm] at hs2 ha'
          cases hs2 with
          | cons hxy _ =>
            cases ha'
            exact absurd (hexdigest_len d) (hg' _ (same_hasKey hxy hd))
  · left
    by_cases hne : s = m' ++ [b']
    · exact hne ▸ hs2
    · cases s with
      | nil => cases m <;> simp at hs2
      | cons x t =>
        obtain ⟨d, hd⟩ := suffix_head T sha h2 hs1 hne rfl
        cases hm : m ++ [b] with
        | nil => simp at hm
        | cons y t' =>
          rw [hm] at hs2 ha
          cases hs2 with
          | cons hxy _ =>
            cases ha
            exact absurd (hexdigest_len d) (hg _ (same_hasKey (same_symm hxy) hd))
  · exact .inr h

end Verif.ChainHash
