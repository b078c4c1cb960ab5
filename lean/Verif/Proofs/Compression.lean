import Verif.Model.Compression
import Verif.Spec.Compression
import Verif.Proofs.Bytes
import Verif.Proofs.Memoize
import Mathlib.Data.List.Basic
import Mathlib.Data.List.Flatten
/-! # Proof compression -/

namespace Verif.Compression

theorem clean_iff (x : Bytes) : Clean x ↔ x.length ≠ 2 ∧ x ≠ dash ∧ x ≠ plus ∧ x ≠ equal ∧ x ≠ slash := by
  unfold Clean
  have h1 : List.replicate 4 (UInt8.ofNat '-'.toNat) = dash := by decide
  have h2 : List.replicate 4 (UInt8.ofNat '+'.toNat) = plus := by decide
  have h3 : List.replicate 4 (UInt8.ofNat '='.toNat) = equal := by decide
  have h4 : List.replicate 4 (UInt8.ofNat '/'.toNat) = slash := by decide
  constructor
  · rintro ⟨h, hc⟩
    exact ⟨h, h1 ▸ hc '-' (by simp), h2 ▸ hc '+' (by simp), h3 ▸ hc '=' (by simp), h4 ▸ hc '/' (by simp)⟩
  · rintro ⟨h, a, b, c, d⟩
    refine ⟨h, fun ch hch => ?_⟩
    simp only [List.mem_cons, List.not_mem_nil, or_false] at hch
    rcases hch with rfl | rfl | rfl | rfl
    · rw [h1]; exact a
    · rw [h2]; exact b
    · rw [h3]; exact c
    · rw [h4]; exact d

/-! ### The compressor -/

/-- `st` encodes the token list `T`. -/
structure Enc (st : St) (T : List Bytes) : Prop where
  len : st.o.length = T.length
  idx : ∀ x i, st.oindex.lookup x = some i → st.o[i]? = some x ∧ i < T.length
  mem : ∀ x i, st.oindex.lookup x = some i → x ∈ T
  lk : ∀ x, st.oindex.lookup x = if x ∈ T then some (T.idxOf x) else none
  tok : ∀ (pos : Nat) t, T[pos]? = some t → st.o[pos]? = some t ∨
    ∃ i, i < 65536 ∧ st.o[pos]? = some (beDigits 2 i) ∧ st.o[i]? = some t

theorem Enc.nil : Enc ⟨[], []⟩ [] :=
  ⟨rfl, by simp, by simp, by simp, by simp⟩

theorem getElem?_append_some {α : Type _} {l : List α} {i : Nat} {a b : α} (h : l[i]? = some a) : (l ++ [b])[i]? = some a := by
  rw [List.getElem?_append_left (List.getElem?_eq_some_iff.mp h).1]; exact h

theorem snoc_cases {α : Type _} {l : List α} {c d : α} {k : Nat} (h : (l ++ [c])[k]? = some d) :
    l[k]? = some d ∨ (k = l.length ∧ d = c) := by
  rcases Nat.lt_trichotomy k l.length with h1 | h1 | h1
  · left; rw [List.getElem?_append_left h1] at h; exact h
  · right; subst h1; simp at h; exact ⟨rfl, h.symm⟩
  · rw [List.getElem?_append_right (by omega), List.getElem?_eq_none (by simp; omega)] at h; simp at h

theorem addObj_spec {st : St} {T : List Bytes} (h : Enc st T) (x : Bytes) (hT : x ∈ T → x ∈ T.take 65536) :
    ∃ st', addObj st x = .ok st' ∧ Enc st' (T ++ [x]) ∧ (x ∉ T → st'.o = st.o ++ [x]) ∧ (∃ b, st'.o = st.o ++ [b]) := by
  unfold addObj
  cases hl : st.oindex.lookup x with
  | some i =>
    obtain ⟨h1, h2⟩ := h.idx x i hl
    have hx := h.mem x i hl
    have hi : i < 65536 := by
      have := h.lk x
      rw [hl, if_pos hx] at this
      rw [Option.some.inj this]
      exact (List.mem_take_iff_idxOf_lt hx).1 (hT hx)
    have hb : intToBytes (i : Int) 2 = .ok (beDigits 2 i) := by
      unfold intToBytes
      rw [if_neg (by norm_num; omega)]; rfl
    refine ⟨⟨st.o ++ [beDigits 2 i], st.oindex⟩, ?_, ?_, fun hx => absurd (h.mem x i hl) hx, _, rfl⟩
    · simp only [hb, bind, Except.bind]
    · refine ⟨by simp [h.len], ?_, ?_, ?_, ?_⟩
      · intro y j hy
        obtain ⟨e1, e2⟩ := h.idx y j hy
        exact ⟨getElem?_append_some e1, by simp; omega⟩
      · intro y j hy; simp [h.mem y j hy]
      · intro y
        rw [h.lk y]
        by_cases hy : y ∈ T
        · rw [if_pos hy, if_pos (by simp [hy]), List.idxOf_append_of_mem hy]
        · have : y ≠ x := fun e => hy (e ▸ hx)
          rw [if_neg hy, if_neg (by simp [hy, this])]
      · intro pos t ht
        rcases snoc_cases ht with ht | ⟨rfl, rfl⟩
        · rcases h.tok pos t ht with e | ⟨j, e1, e2, e3⟩
          · exact Or.inl (getElem?_append_some e)
          · exact Or.inr ⟨j, e1, getElem?_append_some e2, getElem?_append_some e3⟩
        · right
          exact ⟨i, by omega, by simp [← h.len], getElem?_append_some h1⟩
  | none =>
    refine ⟨_, rfl, ?_, fun _ => rfl, _, rfl⟩
    have hx : x ∉ T := fun hx => by
      have := h.lk x
      rw [hl, if_pos hx] at this
      cases this
    refine ⟨by simp [h.len], ?_, ?_, ?_, ?_⟩
    · intro y j hy
      by_cases hxy : y = x
      · subst hxy
        rw [show List.lookup y ((y, st.o.length) :: st.oindex) = _ from lookup_self _ _ _] at hy
        cases hy
        exact ⟨by simp, by simp [h.len]⟩
      · rw [show List.lookup y ((x, st.o.length) :: st.oindex) = _ from lookup_ne hxy _ _] at hy
        obtain ⟨e1, e2⟩ := h.idx y j hy
        exact ⟨getElem?_append_some e1, by simp; omega⟩
    · intro y j hy
      by_cases hxy : y = x
      · simp [hxy]
      · rw [show List.lookup y ((x, st.o.length) :: st.oindex) = _ from lookup_ne hxy _ _] at hy
        simp [h.mem y j hy]
    · intro y
      by_cases hxy : y = x
      · subst hxy
        rw [show List.lookup y ((y, st.o.length) :: st.oindex) = _ from lookup_self _ _ _, if_pos (by simp),
          List.idxOf_append_of_notMem hx, h.len]
        simp
      · rw [show List.lookup y ((x, st.o.length) :: st.oindex) = _ from lookup_ne hxy _ _, h.lk y]
        by_cases hy : y ∈ T
        · rw [if_pos hy, if_pos (by simp [hy]), List.idxOf_append_of_mem hy]
        · rw [if_neg hy, if_neg (by simp [hy, hxy])]
    · intro pos t ht
      rcases snoc_cases ht with ht | ⟨rfl, rfl⟩
      · rcases h.tok pos t ht with e | ⟨j, e1, e2, e3⟩
        · exact Or.inl (getElem?_append_some e)
        · exact Or.inr ⟨j, e1, getElem?_append_some e2, getElem?_append_some e3⟩
      · left; simp [← h.len]

/-- `add_obj` raises `OverflowError` on an entry seen before whose first position does not fit into two bytes. -/
theorem addObj_overflow {st : St} {T : List Bytes} (h : Enc st T) (x : Bytes) (hx : x ∈ T) (hT : x ∉ T.take 65536) :
    addObj st x = .error .overflow := by
  unfold addObj
  have hl := h.lk x
  rw [if_pos hx] at hl
  rw [hl]
  have hi : ¬ T.idxOf x < 65536 := fun hlt => hT ((List.mem_take_iff_idxOf_lt hx).2 hlt)
  have hb : intToBytes ((T.idxOf x : Nat) : Int) 2 = .error .overflow := by
    unfold intToBytes
    rw [if_pos (by norm_num; omega)]
  simp only [hb, bind, Except.bind]

/-- Every entry of `xs`, coming after `T`, is new or occurs among the first 65536. -/
def Fits : List Bytes → List Bytes → Prop
  | _, [] => True
  | T, x :: xs => (x ∈ T → x ∈ T.take 65536) ∧ Fits (T ++ [x]) xs

theorem addAll_spec : ∀ (xs : List Bytes) {st : St} {T : List Bytes}, Enc st T → Fits T xs →
    ∃ st', addAll st xs = .ok st' ∧ Enc st' (T ++ xs) ∧ st.o <+: st'.o
  | [], st, T, h, _ => ⟨st, rfl, by simpa using h, List.prefix_rfl⟩
  | x :: xs, st, T, h, hl => by
    obtain ⟨st1, h1, h2, -, b, hb⟩ := addObj_spec h x hl.1
    obtain ⟨st2, h3, h4, h5⟩ := addAll_spec xs h2 hl.2
    refine ⟨st2, by simp only [addAll, h1, bind, Except.bind]; exact h3, by simpa using h4, ?_⟩
    exact (hb ▸ List.prefix_append st.o [b]).trans h5

theorem addAll_overflow : ∀ (xs : List Bytes) {st : St} {T : List Bytes}, Enc st T → ¬ Fits T xs → addAll st xs = .error .overflow
  | [], _, _, _, h => absurd trivial h
  | x :: xs, st, T, h, hl => by
    by_cases hx : x ∈ T → x ∈ T.take 65536
    · obtain ⟨st1, h1, h2, -⟩ := addObj_spec h x hx
      simp only [addAll, h1, bind, Except.bind]
      exact addAll_overflow xs h2 fun h3 => hl ⟨hx, h3⟩
    · rw [Classical.not_imp] at hx
      simp only [addAll, addObj_overflow h x hx.1 hx.2, bind, Except.bind]

theorem fits_append : ∀ (xs ys T : List Bytes), Fits T (xs ++ ys) ↔ Fits T xs ∧ Fits (T ++ xs) ys
  | [], ys, T => by simp [Fits]
  | x :: xs, ys, T => by
    rw [List.cons_append, Fits, Fits, fits_append xs ys, and_assoc, List.append_assoc, List.singleton_append]

theorem fits_iff : ∀ (xs T : List Bytes), Fits T xs ↔
    ∀ (pos : Nat) (x : Bytes), xs[pos]? = some x → x ∈ T ++ xs.take pos → x ∈ (T ++ xs).take 65536
  | [], T => by simp [Fits]
  | y :: xs, T => by
    rw [Fits, fits_iff xs]
    constructor
    · rintro ⟨h1, h2⟩ pos x hx hm
      cases pos with
      | zero =>
        rw [List.getElem?_cons_zero] at hx
        cases hx
        rw [List.take_zero, List.append_nil] at hm
        rw [List.take_append]
        exact List.mem_append_left _ (h1 hm)
      | succ pos =>
        rw [List.getElem?_cons_succ] at hx
        have := h2 pos x hx (by simpa using hm)
        simpa using this
    · intro h
      refine ⟨fun hy => ?_, fun pos x hx hm => ?_⟩
      · have h3 := h 0 y (by simp) (by simpa using hy)
        rw [List.mem_take_iff_idxOf_lt (by simp)] at h3
        rw [List.mem_take_iff_idxOf_lt hy]
        rwa [List.idxOf_append_of_mem hy] at h3
      · have := h (pos + 1) x (by simpa using hx) (by simpa using hm)
        simpa using this

theorem fits_nil_iff (xs : List Bytes) : Fits [] xs ↔ Referable xs := by
  rw [fits_iff]
  simp only [List.nil_append]
  rfl

theorem referable_of_length {T : List Bytes} (h : T.length ≤ 65536) : Referable T := by
  intro pos x hx _
  rw [List.take_of_length_le h]
  exact List.mem_of_getElem? hx

theorem addAll_append : ∀ (xs ys : List Bytes) (st : St), addAll st (xs ++ ys) = (addAll st xs).bind (fun s => addAll s ys)
  | [], _, _ => rfl
  | x :: xs, ys, st => by
    simp only [List.cons_append, addAll, bind, Except.bind]
    cases addObj st x with
    | error e => rfl
    | ok s => exact addAll_append xs ys s

theorem addAll_single (st : St) (x : Bytes) : addAll st [x] = addObj st x := by
  simp only [addAll, bind, Except.bind]; cases addObj st x <;> rfl

/-- The token stream of a yproof. -/
def yTokens (y : List (List Bytes)) : List Bytes := y.flatMap (fun b => b ++ [plus])
def ysTokens (ys : List (List (List Bytes))) : List Bytes := ys.flatMap (fun y => yTokens y ++ [equal])
def itemTokens (it : Item) : List Bytes := dash :: it.1 :: ysTokens it.2
def itemsTokens (its : List Item) : List Bytes := its.flatMap itemTokens

theorem addYproof_eq : ∀ (y : List (List Bytes)) (st : St), addYproof st y = addAll st (yTokens y)
  | [], st => rfl
  | b :: y, st => by
    simp only [addYproof, yTokens, List.flatMap_cons, bind, Except.bind]
    rw [List.append_assoc, addAll_append, Except.bind.eq_def]
    cases addAll st b with
    | error e => rfl
    | ok s =>
      simp only
      rw [addAll_append, addAll_single, Except.bind.eq_def]
      cases addObj s plus with
      | error e => rfl
      | ok s => exact addYproof_eq y s

theorem addYproofs_eq : ∀ (ys : List (List (List Bytes))) (st : St), addYproofs st ys = addAll st (ysTokens ys)
  | [], st => rfl
  | y :: ys, st => by
    simp only [addYproofs, ysTokens, List.flatMap_cons, bind, Except.bind]
    rw [List.append_assoc, addAll_append, Except.bind.eq_def, addYproof_eq]
    cases addAll st (yTokens y) with
    | error e => rfl
    | ok s =>
      simp only
      rw [addAll_append, addAll_single, Except.bind.eq_def]
      cases addObj s equal with
      | error e => rfl
      | ok s => exact addYproofs_eq ys s

theorem addItems_eq : ∀ (its : List Item) (st : St), addItems st its = addAll st (itemsTokens its)
  | [], st => rfl
  | (root, ys) :: its, st => by
    simp only [addItems, itemsTokens, List.flatMap_cons, bind, Except.bind, itemTokens, List.cons_append, addAll]
    cases addObj st dash with
    | error e => rfl
    | ok s =>
      simp only
      cases addObj s root with
      | error e => rfl
      | ok s =>
        simp only
        rw [addAll_append, Except.bind.eq_def, addYproofs_eq]
        cases addAll s (ysTokens ys) with
        | error e => rfl
        | ok s => exact addItems_eq its s

theorem addBranches_eq : ∀ (bs : List (List Bytes)) (st : St), addBranches st bs = addAll st (bs.flatMap (fun b => b ++ [dash]))
  | [], st => rfl
  | b :: bs, st => by
    simp only [addBranches, List.flatMap_cons, bind, Except.bind]
    rw [List.append_assoc, addAll_append, Except.bind.eq_def]
    cases addAll st b with
    | error e => rfl
    | ok s =>
      simp only
      rw [addAll_append, addAll_single, Except.bind.eq_def]
      cases addObj s dash with
      | error e => rfl
      | ok s => exact addBranches_eq bs s

/-! ### The decompressor on a faithful encoding -/

/-- `proof` decodes, position by position, to `T`. -/
def Decodes (proof T : List Bytes) : Prop :=
  proof.length = T.length ∧ ∀ (pos : Nat) t, T[pos]? = some t → getObj proof pos = .ok t

theorem Enc.decodes {st : St} {T : List Bytes} (h : Enc st T) (hT : ∀ t ∈ T, t.length ≠ 2) : Decodes st.o T := by
  refine ⟨h.len, fun pos t ht => ?_⟩
  have ht2 := hT t (List.mem_of_getElem? ht)
  rcases h.tok pos t ht with e | ⟨i, e1, e2, e3⟩
  · simp [getObj, pyIdx, e, bind, Except.bind, ht2]
  · have hf : fromBytes (beDigits 2 i) = i := fromBytes_beDigits 2 i (by norm_num; exact e1)
    simp [getObj, pyIdx, e2, e3, bind, Except.bind, beDigits_length, hf]

theorem Decodes.at {proof T pre post : List Bytes} {t : Bytes} (h : Decodes proof T) (e : T = pre ++ t :: post) :
    getObj proof pre.length = .ok t := h.2 _ _ (by rw [e]; simp)

theorem readBranch_spec {proof T : List Bytes} (h : Decodes proof T) (post : List Bytes) :
    ∀ (branch pre acc : List Bytes) (fuel : Nat), T = pre ++ (branch ++ plus :: post) → (∀ x ∈ branch, x ≠ plus) →
      branch.length < fuel → readBranch proof fuel pre.length acc = .ok (acc ++ branch, pre.length + branch.length)
  | [], pre, acc, fuel, e, _, hf => by
    obtain ⟨f, rfl⟩ : ∃ f, fuel = f + 1 := ⟨fuel - 1, by simp at hf; omega⟩
    simp only [readBranch, h.at e, bind, Except.bind]
    simp
  | x :: branch, pre, acc, fuel, e, hx, hf => by
    obtain ⟨f, rfl⟩ : ∃ f, fuel = f + 1 := ⟨fuel - 1, by simp at hf; omega⟩
    have e' : T = (pre ++ [x]) ++ (branch ++ plus :: post) := by rw [e]; simp
    have := readBranch_spec h post branch (pre ++ [x]) (acc ++ [x]) f e' (fun y hy => hx y (by simp [hy])) (by simp at hf; omega)
    simp only [readBranch, h.at e, bind, Except.bind]
    rw [if_pos (hx x (by simp))]
    simp only [List.length_append, List.length_singleton] at this
    rw [this]
    simp; omega

theorem readYproof_spec {proof T : List Bytes} (h : Decodes proof T) (post : List Bytes) :
    ∀ (y : List (List Bytes)) (pre : List Bytes) (acc : List (List Bytes)) (fuel : Nat),
      T = pre ++ (yTokens y ++ equal :: post) → (∀ b ∈ y, ∀ x ∈ b, x ≠ plus ∧ x ≠ equal) →
      y.length < fuel → readYproof proof fuel pre.length acc = .ok (acc ++ y, pre.length + (yTokens y).length)
  | [], pre, acc, fuel, e, _, hf => by
    obtain ⟨f, rfl⟩ : ∃ f, fuel = f + 1 := ⟨fuel - 1, by simp at hf; omega⟩
    simp only [readYproof, h.at e, bind, Except.bind]
    simp [yTokens]
  | b :: y, pre, acc, fuel, e, hx, hf => by
    obtain ⟨f, rfl⟩ : ∃ f, fuel = f + 1 := ⟨fuel - 1, by simp at hf; omega⟩
    have e1 : T = pre ++ (b ++ plus :: (yTokens y ++ equal :: post)) := by
      rw [e]; simp [yTokens, List.flatMap_cons]
    have e2 : T = (pre ++ b ++ [plus]) ++ (yTokens y ++ equal :: post) := by rw [e1]; simp
    have hb := hx b (by simp)
    have hfirst : ∃ t, getObj proof pre.length = .ok t ∧ t ≠ equal := by
      cases b with
      | nil => exact ⟨plus, h.at e1, by decide⟩
      | cons x b => exact ⟨x, h.at e1, (hb x (by simp)).2⟩
    obtain ⟨t, ht1, ht2⟩ := hfirst
    have hr := readBranch_spec h _ b pre [] (proof.length + 1) e1 (fun x hx => (hb x hx).1)
      (by rw [h.1, e1]; simp; omega)
    have := readYproof_spec h post y (pre ++ b ++ [plus]) (acc ++ [b]) f e2 (fun c hc => hx c (by simp [hc])) (by simp at hf; omega)
    simp only [readYproof, ht1, bind, Except.bind]
    rw [if_pos ht2, hr]
    simp only [List.length_append, List.length_singleton] at this
    simp only [List.nil_append]
    rw [this]
    simp [yTokens, List.flatMap_cons]; omega

theorem ysTokens_length_ge (ys : List (List (List Bytes))) : ys.length ≤ (ysTokens ys).length := by
  induction ys with
  | nil => simp
  | cons y ys ih => simp [ysTokens, List.flatMap_cons] at ih ⊢; omega

theorem yTokens_length_ge (y : List (List Bytes)) : y.length ≤ (yTokens y).length := by
  induction y with
  | nil => simp
  | cons b y ih => simp [yTokens, List.flatMap_cons] at ih ⊢; omega

theorem readYproofs_spec {proof T : List Bytes} (h : Decodes proof T) (next : Bytes) (hn : next = dash ∨ next = slash)
    (post : List Bytes) :
    ∀ (ys : List (List (List Bytes))) (pre : List Bytes) (acc : List (List (List Bytes))) (fuel : Nat),
      T = pre ++ (ysTokens ys ++ next :: post) →
      (∀ y ∈ ys, ∀ b ∈ y, ∀ x ∈ b, x ≠ plus ∧ x ≠ equal ∧ x ≠ dash ∧ x ≠ slash) →
      ys.length < fuel → readYproofs proof fuel pre.length acc = .ok (acc ++ ys, pre.length + (ysTokens ys).length)
  | [], pre, acc, fuel, e, _, hf => by
    obtain ⟨f, rfl⟩ : ∃ f, fuel = f + 1 := ⟨fuel - 1, by simp at hf; omega⟩
    simp only [readYproofs, h.at e, bind, Except.bind]
    rw [if_neg (by rcases hn with rfl | rfl <;> decide)]
    simp [ysTokens]
  | y :: ys, pre, acc, fuel, e, hx, hf => by
    obtain ⟨f, rfl⟩ : ∃ f, fuel = f + 1 := ⟨fuel - 1, by simp at hf; omega⟩
    have e1 : T = pre ++ (yTokens y ++ equal :: (ysTokens ys ++ next :: post)) := by
      rw [e]; simp [ysTokens, List.flatMap_cons]
    have e2 : T = (pre ++ yTokens y ++ [equal]) ++ (ysTokens ys ++ next :: post) := by rw [e1]; simp
    have hy := hx y (by simp)
    have hfirst : ∃ t, getObj proof pre.length = .ok t ∧ (t ≠ dash ∧ t ≠ slash) := by
      cases y with
      | nil => exact ⟨equal, h.at (by rw [e1]; simp [yTokens]; rfl), by decide⟩
      | cons b y =>
        cases b with
        | nil => exact ⟨plus, h.at (by rw [e1]; simp [yTokens, List.flatMap_cons]; rfl), by decide⟩
        | cons x b =>
          exact ⟨x, h.at (by rw [e1]; simp [yTokens, List.flatMap_cons]; rfl), (hy (x :: b) (by simp) x (by simp)).2.2⟩
    obtain ⟨t, ht1, ht2⟩ := hfirst
    have hr := readYproof_spec h _ y pre [] (proof.length + 1) e1 (fun b hb x hx => ⟨(hy b hb x hx).1, (hy b hb x hx).2.1⟩)
      (by rw [h.1, e1]; have := yTokens_length_ge y; simp; omega)
    have := readYproofs_spec h next hn post ys (pre ++ yTokens y ++ [equal]) (acc ++ [y]) f e2
      (fun c hc => hx c (by simp [hc])) (by simp at hf; omega)
    simp only [readYproofs, ht1, bind, Except.bind]
    rw [if_pos ht2, hr]
    simp only [List.length_append, List.length_singleton] at this
    simp only [List.nil_append]
    rw [this]
    simp [ysTokens, List.flatMap_cons]; omega

theorem itemsTokens_head (its : List Item) (post : List Bytes) :
    ∃ next rest, (next = dash ∨ next = slash) ∧ itemsTokens its ++ slash :: post = next :: rest := by
  cases its with
  | nil => exact ⟨slash, post, Or.inr rfl, rfl⟩
  | cons it its => exact ⟨dash, _, Or.inl rfl, by simp [itemsTokens, List.flatMap_cons, itemTokens]; rfl⟩

theorem readItems_spec {proof T : List Bytes} (h : Decodes proof T) (post : List Bytes) :
    ∀ (its : List Item) (pre : List Bytes) (acc : List Item) (fuel : Nat),
      T = pre ++ (itemsTokens its ++ slash :: post) →
      (∀ it ∈ its, ∀ y ∈ it.2, ∀ b ∈ y, ∀ x ∈ b, x ≠ plus ∧ x ≠ equal ∧ x ≠ dash ∧ x ≠ slash) →
      (∀ pos, pos < pre.length + (itemsTokens its).length → proof[pos]? ≠ some slash) →
      proof[pre.length + (itemsTokens its).length]? = some slash →
      its.length < fuel → readItems proof fuel pre.length acc = .ok (acc ++ its, pre.length + (itemsTokens its).length)
  | [], pre, acc, fuel, e, _, _, hs, hf => by
    obtain ⟨f, rfl⟩ : ∃ f, fuel = f + 1 := ⟨fuel - 1, by simp at hf; omega⟩
    have : proof[pre.length]? = some slash := by simpa [itemsTokens] using hs
    simp [readItems, pyIdx, this, bind, Except.bind, itemsTokens]
  | (root, ys) :: its, pre, acc, fuel, e, hx, hraw, hs, hf => by
    obtain ⟨f, rfl⟩ : ∃ f, fuel = f + 1 := ⟨fuel - 1, by simp at hf; omega⟩
    obtain ⟨next, rest, hn, hrest⟩ := itemsTokens_head its post
    have e0 : T = pre ++ dash :: (root :: (ysTokens ys ++ (itemsTokens its ++ slash :: post))) := by
      rw [e]; simp [itemsTokens, List.flatMap_cons, itemTokens]
    have e1 : T = (pre ++ [dash, root]) ++ (ysTokens ys ++ next :: rest) := by rw [e0, hrest]; simp
    have e1' : T = (pre ++ [dash]) ++ root :: (ysTokens ys ++ (itemsTokens its ++ slash :: post)) := by rw [e0]; simp
    have e2 : T = (pre ++ [dash, root] ++ ysTokens ys) ++ (itemsTokens its ++ slash :: post) := by rw [e0]; simp
    have hlen : (itemsTokens ((root, ys) :: its)).length = 2 + (ysTokens ys).length + (itemsTokens its).length := by
      simp [itemsTokens, List.flatMap_cons, itemTokens]; omega
    rw [hlen] at hraw hs
    have hroot := h.at e1'
    simp only [List.length_append, List.length_singleton] at hroot
    have hpl : pre.length < proof.length := by rw [h.1, e0]; simp
    have hrawp : proof[pre.length] ≠ slash := fun hc =>
      hraw pre.length (by omega) (by rw [List.getElem?_eq_getElem hpl, hc])
    have hr := readYproofs_spec h next hn rest ys (pre ++ [dash, root]) [] (proof.length + 1) e1
      (fun y hy => hx (root, ys) (by simp) y hy) (by rw [h.1, e1]; have := ysTokens_length_ge ys; simp; omega)
    simp only [List.length_append, List.length_cons, List.length_nil, Nat.reduceAdd] at hr
    have := readItems_spec h post its (pre ++ [dash, root] ++ ysTokens ys) (acc ++ [(root, ys)]) f e2
      (fun c hc => hx c (by simp [hc]))
      (fun pos hpos => hraw pos (by simp at hpos; omega))
      (by rw [← hs]; congr 1; simp; omega) (by simp at hf; omega)
    simp only [List.length_append, List.length_cons, List.length_nil, Nat.reduceAdd] at this
    simp only [readItems, pyIdx, List.getElem?_eq_getElem hpl, bind, Except.bind]
    rw [if_pos hrawp]
    simp only [h.at e0, pyAssert, beq_self_eq_true, if_true, hroot, hr, List.nil_append, this]
    rw [hlen]
    simp; omega

theorem readTail_spec {proof T : List Bytes} (h : Decodes proof T) :
    ∀ (post pre : List Bytes), T = pre ++ post → readTail proof (List.range' pre.length post.length) = .ok post
  | [], pre, _ => rfl
  | x :: post, pre, e => by
    have e' : T = (pre ++ [x]) ++ post := by rw [e]; simp
    have := readTail_spec h post (pre ++ [x]) e'
    simp only [List.length_append, List.length_singleton] at this
    simp only [List.length_cons, List.range'_succ, readTail, h.at e, bind, Except.bind, this]

theorem decompressFri_spec {proof : List Bytes} (its : List Item) (last : List Bytes)
    (h : Decodes proof (itemsTokens its ++ slash :: last))
    (hx : ∀ it ∈ its, ∀ y ∈ it.2, ∀ b ∈ y, ∀ x ∈ b, x ≠ plus ∧ x ≠ equal ∧ x ≠ dash ∧ x ≠ slash)
    (hraw : ∀ pos, pos < (itemsTokens its).length → proof[pos]? ≠ some slash)
    (hs : proof[(itemsTokens its).length]? = some slash) : decompressFri proof = .ok (its, last) := by
  have hits : its.length ≤ (itemsTokens its).length := by
    clear h hx hraw hs
    induction its with
    | nil => simp
    | cons it its ih => simp [itemsTokens, List.flatMap_cons, itemTokens] at ih ⊢; omega
  have h1 := readItems_spec h last its [] [] (proof.length + 1) rfl hx (by simpa using hraw) (by simpa using hs)
    (by rw [h.1]; simp; omega)
  have h2 := readTail_spec h last (itemsTokens its ++ [slash]) (by simp)
  simp only [List.length_nil, List.nil_append, Nat.zero_add] at h1
  simp only [List.length_append, List.length_singleton] at h2
  have hl : proof.length - ((itemsTokens its).length + 1) = last.length := by rw [h.1]; simp; omega
  simp only [decompressFri, h1, bind, Except.bind, hl, h2]

/-! ### Branch lists -/

theorem readToDash_spec {proof T : List Bytes} (h : Decodes proof T) (post : List Bytes) :
    ∀ (branch pre acc : List Bytes) (fuel : Nat), T = pre ++ (branch ++ dash :: post) → (∀ x ∈ branch, x ≠ dash) →
      branch.length < fuel → readToDash proof fuel pre.length acc = .ok (acc ++ branch, pre.length + branch.length)
  | [], pre, acc, fuel, e, _, hf => by
    obtain ⟨f, rfl⟩ : ∃ f, fuel = f + 1 := ⟨fuel - 1, by simp at hf; omega⟩
    have hl : pre.length < proof.length := by rw [h.1, e]; simp
    simp only [readToDash, h.at e, bind, Except.bind, hl, if_true]
    simp
  | x :: branch, pre, acc, fuel, e, hx, hf => by
    obtain ⟨f, rfl⟩ : ∃ f, fuel = f + 1 := ⟨fuel - 1, by simp at hf; omega⟩
    have hl : pre.length < proof.length := by rw [h.1, e]; simp
    have e' : T = (pre ++ [x]) ++ (branch ++ dash :: post) := by rw [e]; simp
    have := readToDash_spec h post branch (pre ++ [x]) (acc ++ [x]) f e' (fun y hy => hx y (by simp [hy])) (by simp at hf; omega)
    simp only [readToDash, h.at e, bind, Except.bind, hl, if_true]
    rw [if_pos (hx x (by simp))]
    simp only [List.length_append, List.length_singleton] at this
    rw [this]
    simp; omega

theorem readBranches_spec {proof T : List Bytes} (h : Decodes proof T) :
    ∀ (bs : List (List Bytes)) (pre : List Bytes) (acc : List (List Bytes)) (fuel : Nat),
      T = pre ++ bs.flatMap (fun b => b ++ [dash]) → (∀ b ∈ bs, ∀ x ∈ b, x ≠ dash) →
      bs.length < fuel → readBranches proof fuel pre.length acc = .ok (acc ++ bs)
  | [], pre, acc, fuel, e, _, hf => by
    obtain ⟨f, rfl⟩ : ∃ f, fuel = f + 1 := ⟨fuel - 1, by simp at hf; omega⟩
    have hl : ¬ pre.length < proof.length := by rw [h.1, e]; simp
    simp [readBranches, hl]
  | b :: bs, pre, acc, fuel, e, hx, hf => by
    obtain ⟨f, rfl⟩ : ∃ f, fuel = f + 1 := ⟨fuel - 1, by simp at hf; omega⟩
    have e1 : T = pre ++ (b ++ dash :: bs.flatMap (fun b => b ++ [dash])) := by rw [e]; simp [List.flatMap_cons]
    have e2 : T = (pre ++ b ++ [dash]) ++ bs.flatMap (fun b => b ++ [dash]) := by rw [e1]; simp
    have hl : pre.length < proof.length := by rw [h.1, e1]; simp
    have hr := readToDash_spec h _ b pre [] (proof.length + 1) e1 (hx b (by simp)) (by rw [h.1, e1]; simp; omega)
    have := readBranches_spec h bs (pre ++ b ++ [dash]) (acc ++ [b]) f e2 (fun c hc => hx c (by simp [hc])) (by simp at hf; omega)
    simp only [List.length_append, List.length_singleton] at this
    simp only [readBranches, hl, if_true, hr, bind, Except.bind, List.nil_append]
    rw [this]; simp

theorem decompressBranches_spec {proof : List Bytes} (bs : List (List Bytes))
    (h : Decodes proof (bs.flatMap (fun b => b ++ [dash]))) (hx : ∀ b ∈ bs, ∀ x ∈ b, x ≠ dash) :
    decompressBranches proof = .ok bs := by
  have hl : bs.length ≤ (bs.flatMap (fun b => b ++ [dash])).length := by
    clear h hx
    induction bs with
    | nil => simp
    | cons b bs ih => simp [List.flatMap_cons] at ih ⊢; omega
  have := readBranches_spec h bs [] [] (proof.length + 1) rfl hx (by rw [h.1]; omega)
  simpa [decompressBranches] using this

/-! ### Termination of the decompressors on arbitrary input -/

theorem getObj_ne_diverge (proof : List Bytes) (pos : Nat) : getObj proof pos ≠ .error .diverge := by
  have hp : ∀ i, pyIdx proof i ≠ .error .diverge := by
    intro i; unfold pyIdx; split <;> simp
  unfold getObj
  simp only [bind, Except.bind]
  split
  · next e he => intro h; cases h; exact hp _ he
  · split
    · exact hp _
    · simp

theorem getObj_lt {proof : List Bytes} {pos : Nat} {x : Bytes} (h : getObj proof pos = .ok x) : pos < proof.length := by
  by_contra hc
  simp [getObj, pyIdx, List.getElem?_eq_none (by omega : proof.length ≤ pos), bind, Except.bind] at h

/-- A result that is not `diverge`, and whose final position lies in `[pos, len)`. -/
def Good {α : Type} (pos len : Nat) (x : Py (α × Nat)) : Prop :=
  x ≠ .error .diverge ∧ ∀ r, x = .ok r → pos ≤ r.2 ∧ r.2 < len

theorem Good.err {α : Type} {pos len : Nat} {e : PyErr} (h : e ≠ .diverge) : Good (α := α) pos len (.error e) :=
  ⟨fun hc => h (by injection hc), fun r hr => by cases hr⟩

theorem getObj_err {proof : List Bytes} {pos : Nat} {e : PyErr} (h : getObj proof pos = .error e) : e ≠ .diverge :=
  fun hc => getObj_ne_diverge proof pos (hc ▸ h)

theorem readBranch_total (proof : List Bytes) : ∀ (fuel pos : Nat) (acc : List Bytes), proof.length < fuel + pos → 1 ≤ fuel →
    Good pos proof.length (readBranch proof fuel pos acc)
  | 0, _, _, _, h => by omega
  | fuel + 1, pos, acc, h, _ => by
    simp only [readBranch, bind, Except.bind]
    cases hg : getObj proof pos with
    | error e => exact Good.err (getObj_err hg)
    | ok x =>
      have hl := getObj_lt hg
      simp only
      split
      · obtain ⟨a, b⟩ := readBranch_total proof fuel (pos + 1) (acc ++ [x]) (by omega) (by omega)
        exact ⟨a, fun r hr => ⟨by have := (b r hr).1; omega, (b r hr).2⟩⟩
      · exact ⟨by simp, fun r hr => by cases hr; exact ⟨le_refl _, hl⟩⟩

theorem readYproof_total (proof : List Bytes) : ∀ (fuel pos : Nat) (acc : List (List Bytes)),
    proof.length < fuel + pos → 1 ≤ fuel → Good pos proof.length (readYproof proof fuel pos acc)
  | 0, _, _, _, h => by omega
  | fuel + 1, pos, acc, h, _ => by
    simp only [readYproof, bind, Except.bind]
    cases hg : getObj proof pos with
    | error e => exact Good.err (getObj_err hg)
    | ok x =>
      have hl := getObj_lt hg
      simp only
      split
      · have hb := readBranch_total proof (proof.length + 1) pos [] (by omega) (by omega)
        cases hr : readBranch proof (proof.length + 1) pos [] with
        | error e => exact Good.err (fun hc => hb.1 (hc ▸ hr))
        | ok r =>
          have hr2 := hb.2 r hr
          obtain ⟨a, b⟩ := readYproof_total proof fuel (r.2 + 1) (acc ++ [r.1]) (by omega) (by omega)
          exact ⟨a, fun r hr => ⟨by have := (b r hr).1; omega, (b r hr).2⟩⟩
      · exact ⟨by simp, fun r hr => by cases hr; exact ⟨le_refl _, hl⟩⟩

theorem readYproofs_total (proof : List Bytes) : ∀ (fuel pos : Nat) (acc : List (List (List Bytes))),
    proof.length < fuel + pos → 1 ≤ fuel → Good pos proof.length (readYproofs proof fuel pos acc)
  | 0, _, _, _, h => by omega
  | fuel + 1, pos, acc, h, _ => by
    simp only [readYproofs, bind, Except.bind]
    cases hg : getObj proof pos with
    | error e => exact Good.err (getObj_err hg)
    | ok x =>
      have hl := getObj_lt hg
      simp only
      split
      · have hb := readYproof_total proof (proof.length + 1) pos [] (by omega) (by omega)
        cases hr : readYproof proof (proof.length + 1) pos [] with
        | error e => exact Good.err (fun hc => hb.1 (hc ▸ hr))
        | ok r =>
          have hr2 := hb.2 r hr
          obtain ⟨a, b⟩ := readYproofs_total proof fuel (r.2 + 1) (acc ++ [r.1]) (by omega) (by omega)
          exact ⟨a, fun r hr => ⟨by have := (b r hr).1; omega, (b r hr).2⟩⟩
      · exact ⟨by simp, fun r hr => by cases hr; exact ⟨le_refl _, hl⟩⟩

theorem readItems_total (proof : List Bytes) : ∀ (fuel pos : Nat) (acc : List Item),
    proof.length < fuel + pos → 1 ≤ fuel → Good pos proof.length (readItems proof fuel pos acc)
  | 0, _, _, _, h => by omega
  | fuel + 1, pos, acc, h, _ => by
    simp only [readItems, bind, Except.bind]
    cases hp : pyIdx proof pos with
    | error e =>
      unfold pyIdx at hp
      split at hp
      · cases hp
      · injection hp with hp; subst hp; exact Good.err (by simp)
    | ok raw =>
      have hl : pos < proof.length := by
        by_contra hc
        simp [pyIdx, List.getElem?_eq_none (by omega : proof.length ≤ pos)] at hp
      simp only
      split
      · cases hg : getObj proof pos with
        | error e => exact Good.err (getObj_err hg)
        | ok x =>
          simp only [pyAssert]
          split
          · next e he => split at he <;> cases he; exact Good.err (by simp)
          · cases hg1 : getObj proof (pos + 1) with
            | error e => exact Good.err (getObj_err hg1)
            | ok root =>
              have hb := readYproofs_total proof (proof.length + 1) (pos + 2) [] (by omega) (by omega)
              simp only
              cases hr : readYproofs proof (proof.length + 1) (pos + 2) [] with
              | error e => exact Good.err (fun hc => hb.1 (hc ▸ hr))
              | ok r =>
                have hr2 := hb.2 r hr
                obtain ⟨a, b⟩ := readItems_total proof fuel r.2 (acc ++ [(root, r.1)]) (by omega) (by omega)
                exact ⟨a, fun r hr => ⟨by have := (b r hr).1; omega, (b r hr).2⟩⟩
      · exact ⟨by simp, fun r hr => by cases hr; exact ⟨le_refl _, hl⟩⟩

theorem readTail_total (proof : List Bytes) : ∀ ps : List Nat, readTail proof ps ≠ .error .diverge
  | [] => by simp [readTail]
  | p :: ps => by
    simp only [readTail, bind, Except.bind]
    cases hg : getObj proof p with
    | error e => exact fun hc => getObj_err hg (by injection hc)
    | ok x =>
      have := readTail_total proof ps
      simp only
      cases hr : readTail proof ps with
      | error e => rw [hr] at this; exact this
      | ok xs => simp

theorem decompressFri_total (proof : List Bytes) : decompressFri proof ≠ .error .diverge := by
  have h := readItems_total proof (proof.length + 1) 0 [] (by omega) (by omega)
  simp only [decompressFri, bind, Except.bind]
  cases hr : readItems proof (proof.length + 1) 0 [] with
  | error e => exact fun hc => h.1 (hr.trans (by injection hc with hc; rw [hc]))
  | ok r =>
    simp only
    have := readTail_total proof (List.range' (r.2 + 1) (proof.length - (r.2 + 1)))
    cases ht : readTail proof (List.range' (r.2 + 1) (proof.length - (r.2 + 1))) with
    | error e => rw [ht] at this; exact fun hc => this (by injection hc with hc; rw [hc])
    | ok xs => simp

theorem readToDash_total (proof : List Bytes) : ∀ (fuel pos : Nat) (acc : List Bytes), proof.length < fuel + pos → 1 ≤ fuel →
    readToDash proof fuel pos acc ≠ .error .diverge ∧ ∀ r, readToDash proof fuel pos acc = .ok r → pos ≤ r.2
  | 0, _, _, _, h => by omega
  | fuel + 1, pos, acc, h, _ => by
    simp only [readToDash, bind, Except.bind]
    split
    · next hl =>
      cases hg : getObj proof pos with
      | error e => exact ⟨fun hc => getObj_err hg (by injection hc), fun r hr => by cases hr⟩
      | ok x =>
        simp only
        split
        · obtain ⟨a, b⟩ := readToDash_total proof fuel (pos + 1) (acc ++ [x]) (by omega) (by omega)
          exact ⟨a, fun r hr => by have := b r hr; omega⟩
        · exact ⟨by simp, fun r hr => by cases hr; exact le_refl _⟩
    · exact ⟨by simp, fun r hr => by cases hr; exact le_refl _⟩

theorem readBranches_total (proof : List Bytes) : ∀ (fuel pos : Nat) (acc : List (List Bytes)),
    proof.length < fuel + pos → 1 ≤ fuel → readBranches proof fuel pos acc ≠ .error .diverge
  | 0, _, _, _, h => by omega
  | fuel + 1, pos, acc, h, _ => by
    simp only [readBranches, bind, Except.bind]
    split
    · next hl =>
      have hb := readToDash_total proof (proof.length + 1) pos [] (by omega) (by omega)
      cases hr : readToDash proof (proof.length + 1) pos [] with
      | error e => exact fun hc => hb.1 (hr.trans (by injection hc with hc; rw [hc]))
      | ok r =>
        have := hb.2 r hr
        exact readBranches_total proof fuel (r.2 + 1) (acc ++ [r.1]) (by omega) (by omega)
    · simp

theorem decompressBranches_total (proof : List Bytes) : decompressBranches proof ≠ .error .diverge :=
  readBranches_total proof _ 0 [] (by omega) (by omega)

/-! ### Round trips -/

theorem itemsTokens_length (its : List Item) : (itemsTokens its).length =
    (its.map fun it => 2 + (it.2.map fun y => 1 + (y.map fun b => b.length + 1).sum).sum).sum := by
  have hy : ∀ y : List (List Bytes), (yTokens y).length = (y.map fun b => b.length + 1).sum := by
    intro y; induction y with
    | nil => rfl
    | cons b y ih => simp [yTokens, List.flatMap_cons] at ih ⊢; omega
  have hys : ∀ ys : List (List (List Bytes)), (ysTokens ys).length = (ys.map fun y => 1 + (y.map fun b => b.length + 1).sum).sum := by
    intro ys; induction ys with
    | nil => rfl
    | cons y ys ih => 
      have := hy y
      simp only [ysTokens, List.flatMap_cons, List.length_append, List.length_singleton, List.map_cons, List.sum_cons] at ih ⊢
      omega
  induction its with
  | nil => rfl
  | cons it its ih =>
    have := hys it.2
    simp only [itemsTokens, itemTokens, List.flatMap_cons, List.length_append, List.length_cons, List.map_cons, List.sum_cons] at ih ⊢
    omega

theorem mem_itemsTokens {its : List Item} {t : Bytes} (h : t ∈ itemsTokens its) :
    t = dash ∨ t = plus ∨ t = equal ∨ t ∈ friObjects (its, []) := by
  simp only [itemsTokens, List.mem_flatMap, itemTokens, ysTokens, yTokens, List.mem_cons, List.mem_append,
    List.not_mem_nil, or_false] at h
  obtain ⟨it, hit, h⟩ := h
  simp only [friObjects, List.append_nil, List.mem_flatMap, List.mem_cons, List.mem_flatten]
  rcases h with h | h | ⟨y, hy, ⟨b, hb, h | h⟩ | h⟩
  · exact Or.inl h
  · exact Or.inr (Or.inr (Or.inr ⟨it, hit, Or.inl h⟩))
  · exact Or.inr (Or.inr (Or.inr ⟨it, hit, Or.inr ⟨b, ⟨y, hy, hb⟩, h⟩⟩))
  · exact Or.inr (Or.inl h)
  · exact Or.inr (Or.inr (Or.inl h))

theorem friEntries_eq (its : List Item) (last : List Bytes) : friEntries (its, last) = itemsTokens its ++ slash :: last := rfl

theorem friEntries_length (prf : FriProof) : (friEntries prf).length = friCount prf := by
  obtain ⟨its, last⟩ := prf
  have : friCount (its, last) = (itemsTokens its).length + 1 + last.length := by
    rw [itemsTokens_length]
    rfl
  rw [friEntries_eq, List.length_append, List.length_cons, this]
  omega

theorem compressFri_roundtrip (prf : FriProof) (hc : ∀ x ∈ friObjects prf, Clean x) (hn : Referable (friEntries prf)) :
    ∃ c, compressFri prf = .ok c ∧ decompressFri c = .ok prf := by
  obtain ⟨its, last⟩ := prf
  have hobj : ∀ x ∈ friObjects (its, []), Clean x := fun x hx => hc x (by
    simp only [friObjects, List.append_nil] at hx ⊢; exact List.mem_append_left _ hx)
  have hlast : ∀ x ∈ last, Clean x := fun x hx => hc x (by simp [friObjects, hx])
  have htok : ∀ t ∈ itemsTokens its, t.length ≠ 2 ∧ t ≠ slash := by
    intro t ht
    rcases mem_itemsTokens ht with rfl | rfl | rfl | h
    · decide
    · decide
    · decide
    · have := (clean_iff t).1 (hobj t h); exact ⟨this.1, this.2.2.2.2⟩
  rw [friEntries_eq, ← fits_nil_iff, fits_append, Fits, List.nil_append] at hn
  obtain ⟨n1, n2, n3⟩ := hn
  obtain ⟨s1, h1, e1, -⟩ := addAll_spec (itemsTokens its) Enc.nil n1
  simp only [List.nil_append] at e1
  have hns : slash ∉ itemsTokens its := fun h => (htok _ h).2 rfl
  obtain ⟨s2, h2, e2, hraw2, -⟩ := addObj_spec e1 slash n2
  obtain ⟨s3, h3, e3, hpre⟩ := addAll_spec last e2 n3
  have hs2 := hraw2 hns
  rw [hs2] at hpre
  obtain ⟨suf, hsuf⟩ := hpre
  have e3' : Enc s3 (itemsTokens its ++ slash :: last) := by simpa using e3
  have hdec := e3'.decodes (by
    intro t ht
    simp only [List.mem_append, List.mem_cons] at ht
    rcases ht with h | rfl | h
    · exact (htok t h).1
    · decide
    · exact (hlast t h).1)
  have hx : ∀ it ∈ its, ∀ y ∈ it.2, ∀ b ∈ y, ∀ x ∈ b, x ≠ plus ∧ x ≠ equal ∧ x ≠ dash ∧ x ≠ slash := by
    intro it hit y hy b hb x hx
    have := (clean_iff x).1 (hobj x (by
      simp only [friObjects, List.append_nil, List.mem_flatMap, List.mem_cons, List.mem_flatten]
      exact ⟨it, hit, Or.inr ⟨b, ⟨y, hy, hb⟩, hx⟩⟩))
    exact ⟨this.2.2.1, this.2.2.2.1, this.2.1, this.2.2.2.2⟩
  have hraw : ∀ pos, pos < (itemsTokens its).length → s3.o[pos]? ≠ some slash := by
    intro pos hpos hcon
    have ht : (itemsTokens its ++ slash :: last)[pos]? = some (itemsTokens its)[pos] := by
      rw [List.getElem?_append_left hpos, List.getElem?_eq_getElem hpos]
    rcases e3'.tok pos _ ht with e | ⟨i, -, e, -⟩
    · rw [hcon] at e; injection e with e
      exact (htok _ (List.getElem_mem hpos)).2 e.symm
    · rw [hcon] at e; injection e with e
      have := congrArg List.length e
      rw [beDigits_length] at this
      simp [slash] at this
  have hs : s3.o[(itemsTokens its).length]? = some slash := by
    rw [← hsuf, ← e1.len]; simp
  have hd := decompressFri_spec its last hdec hx hraw hs
  refine ⟨s3.o, ?_, hd⟩
  simp only [compressFri, addItems_eq, h1, h2, h3, hd, bind, Except.bind, pyAssert, beq_self_eq_true, if_true]

theorem compressBranches_roundtrip (bs : List (List Bytes)) (hc : ∀ b ∈ bs, ∀ x ∈ b, Clean x)
    (hn : Referable (branchEntries bs)) :
    ∃ c, compressBranches bs = .ok c ∧ decompressBranches c = .ok bs := by
  rw [← fits_nil_iff] at hn
  obtain ⟨s1, h1, e1, -⟩ := addAll_spec (bs.flatMap (fun b => b ++ [dash])) Enc.nil hn
  simp only [List.nil_append] at e1
  have hdec := e1.decodes (by
    intro t ht
    simp only [List.mem_flatMap, List.mem_append, List.mem_singleton] at ht
    obtain ⟨b, hb, h | rfl⟩ := ht
    · exact (hc b hb t h).1
    · decide)
  have hd := decompressBranches_spec bs hdec (fun b hb x hx => ((clean_iff x).1 (hc b hb x hx)).2.1)
  refine ⟨s1.o, ?_, hd⟩
  simp only [compressBranches, addBranches_eq, h1, hd, bind, Except.bind, pyAssert, beq_self_eq_true, if_true]

theorem branchEntries_length (bs : List (List Bytes)) : (branchEntries bs).length = (bs.map fun b => b.length + 1).sum := by
  induction bs with
  | nil => rfl
  | cons b bs ih => simp [branchEntries, List.flatMap_cons] at ih ⊢; omega

theorem compressFri_overflow (prf : FriProof) (hn : ¬ Referable (friEntries prf)) : compressFri prf = .error .overflow := by
  obtain ⟨its, last⟩ := prf
  rw [friEntries_eq, ← fits_nil_iff] at hn
  have h := addAll_overflow _ Enc.nil hn
  rw [addAll_append, Except.bind.eq_def] at h
  simp only [compressFri, addItems_eq, bind, Except.bind]
  cases h1 : addAll ⟨[], []⟩ (itemsTokens its) with
  | error e =>
    rw [h1] at h
    cases h
    rfl
  | ok s1 =>
    rw [h1] at h
    simp only [addAll, bind, Except.bind] at h ⊢
    cases h2 : addObj s1 slash with
    | error e =>
      rw [h2] at h
      cases h
      rfl
    | ok s2 =>
      rw [h2] at h
      simp only at h ⊢
      rw [h]

theorem compressBranches_overflow (bs : List (List Bytes)) (hn : ¬ Referable (branchEntries bs)) : compressBranches bs = .error .overflow := by
  rw [← fits_nil_iff] at hn
  have h : addAll ⟨[], []⟩ (bs.flatMap (fun b => b ++ [dash])) = .error .overflow := addAll_overflow _ Enc.nil hn
  simp only [compressBranches, addBranches_eq, h, bind, Except.bind]

theorem addObj_total (st : St) (x : Bytes) : addObj st x ≠ .error .diverge := by
  unfold addObj
  split
  · next i _ =>
    simp only [bind, Except.bind]
    unfold intToBytes
    split_ifs <;> simp
  · simp

theorem addAll_total : ∀ (xs : List Bytes) (st : St), addAll st xs ≠ .error .diverge
  | [], st => by simp [addAll]
  | x :: xs, st => by
    simp only [addAll, bind, Except.bind]
    cases h : addObj st x with
    | error e => exact fun hc => addObj_total st x (h.trans (by injection hc with hc; rw [hc]))
    | ok s => exact addAll_total xs s

theorem compressFri_total (prf : FriProof) : compressFri prf ≠ .error .diverge := by
  simp only [compressFri, addItems_eq, bind, Except.bind, pyAssert]
  cases h1 : addAll ⟨[], []⟩ (itemsTokens prf.1) with
  | error e => exact fun hc => addAll_total _ _ (h1.trans (by injection hc with hc; rw [hc]))
  | ok s1 =>
    simp only
    cases h2 : addObj s1 slash with
    | error e => exact fun hc => addObj_total _ _ (h2.trans (by injection hc with hc; rw [hc]))
    | ok s2 =>
      simp only
      cases h3 : addAll s2 prf.2 with
      | error e => exact fun hc => addAll_total _ _ (h3.trans (by injection hc with hc; rw [hc]))
      | ok s3 =>
        simp only
        cases h4 : decompressFri s3.o with
        | error e => exact fun hc => decompressFri_total _ (h4.trans (by injection hc with hc; rw [hc]))
        | ok d => by_cases hd : (d == prf) = true <;> simp [hd]

theorem compressBranches_total (bs : List (List Bytes)) : compressBranches bs ≠ .error .diverge := by
  simp only [compressBranches, addBranches_eq, bind, Except.bind, pyAssert]
  cases h1 : addAll ⟨[], []⟩ (bs.flatMap (fun b => b ++ [dash])) with
  | error e => exact fun hc => addAll_total _ _ (h1.trans (by injection hc with hc; rw [hc]))
  | ok s1 =>
    simp only
    cases h4 : decompressBranches s1.o with
    | error e => exact fun hc => decompressBranches_total _ (h4.trans (by injection hc with hc; rw [hc]))
    | ok d => by_cases hd : (d == bs) = true <;> simp [hd]

theorem compressFri_sound {prf : FriProof} {c : List Bytes} (h : compressFri prf = .ok c) : decompressFri c = .ok prf := by
  simp only [compressFri, bind, Except.bind, pyAssert] at h
  split at h <;> try cases h
  split at h <;> try cases h
  split at h <;> try cases h
  split at h <;> try cases h
  next d hd =>
  by_cases hdp : (d == prf) = true
  · simp [hdp] at h
    rw [← h, hd, eq_of_beq hdp]
  · simp [hdp] at h

theorem compressBranches_sound {bs : List (List Bytes)} {c : List Bytes} (h : compressBranches bs = .ok c) :
    decompressBranches c = .ok bs := by
  simp only [compressBranches, bind, Except.bind, pyAssert] at h
  split at h <;> try cases h
  split at h <;> try cases h
  next d hd =>
  by_cases hdp : (d == bs) = true
  · simp [hdp] at h
    rw [← h, hd, eq_of_beq hdp]
  · simp [hdp] at h

end Verif.Compression
