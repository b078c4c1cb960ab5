import Verif.Py
/-!
# Model of `starks/compression.py`

A FRI proof `prf` is a list whose last entry is a list of byte strings and whose other entries are `[root, yproofs]`,
each `yproof` a list of branches, each branch a list of byte strings. It is modelled as the pair of the list `prf[:-1]`
and the last entry `prf[-1]` (an empty `prf` raises `IndexError` at `prf[-1]` and is not represented).
-/

namespace Verif.Compression

/-- `b'----'` -/
def dash : Bytes := [45, 45, 45, 45]
/-- `b'++++'` -/
def plus : Bytes := [43, 43, 43, 43]
/-- `b'===='` -/
def equal : Bytes := [61, 61, 61, 61]
/-- `b'////'` -/
def slash : Bytes := [47, 47, 47, 47]

/-- One non-final component of a FRI proof. -/
abbrev Item := Bytes × List (List (List Bytes))
/-- A FRI proof: `prf[:-1]` and `prf[-1]`. -/
abbrev FriProof := List Item × List Bytes

/-- The state of the compressor (compression.py:6-7): the output list and the dictionary of first positions. -/
structure St where
  o : List Bytes
  oindex : List (Bytes × Nat)

/-- compression.py:9-14 (and 71-76) `add_obj` -/
def addObj (st : St) (x : Bytes) : Py St :=
  match st.oindex.lookup x with
  | some i => do
    let b ← intToBytes i 2
    .ok ⟨st.o ++ [b], st.oindex⟩
  | none => .ok ⟨st.o ++ [x], (x, st.o.length) :: st.oindex⟩

/-- A run of `add_obj` calls. -/
def addAll : St → List Bytes → Py St
  | st, [] => .ok st
  | st, x :: xs => do
    let st' ← addObj st x
    addAll st' xs

/-- compression.py:21-24: `for branch in yproof: …` -/
def addYproof : St → List (List Bytes) → Py St
  | st, [] => .ok st
  | st, branch :: rest => do
    let st ← addAll st branch
    let st ← addObj st plus
    addYproof st rest

/-- compression.py:20-25: `for yproof in yproofs: …` -/
def addYproofs : St → List (List (List Bytes)) → Py St
  | st, [] => .ok st
  | st, y :: ys => do
    let st ← addYproof st y
    let st ← addObj st equal
    addYproofs st ys

/-- compression.py:16-25: `for root, yproofs in prf[:-1]: …` -/
def addItems : St → List Item → Py St
  | st, [] => .ok st
  | st, (root, yproofs) :: rest => do
    let st ← addObj st dash
    let st ← addObj st root
    let st ← addYproofs st yproofs
    addItems st rest

/-- compression.py:37-39 (and 88-90) `get_obj` -/
def getObj (proof : List Bytes) (pos : Nat) : Py Bytes := do
  let x ← pyIdx proof pos
  if x.length = 2 then pyIdx proof (fromBytes x) else .ok x

/-- compression.py:52-55: reads one branch up to `b'++++'`; returns it and the position of the separator. -/
def readBranch (proof : List Bytes) : Nat → Nat → List Bytes → Py (List Bytes × Nat)
  | 0, _, _ => .error .diverge
  | fuel + 1, pos, branch => do
    let x ← getObj proof pos
    if x ≠ plus then readBranch proof fuel (pos + 1) (branch ++ [x]) else .ok (branch, pos)

/-- compression.py:50-57: reads one yproof up to `b'===='`. -/
def readYproof (proof : List Bytes) : Nat → Nat → List (List Bytes) → Py (List (List Bytes) × Nat)
  | 0, _, _ => .error .diverge
  | fuel + 1, pos, yproof => do
    let x ← getObj proof pos
    if x ≠ equal then do
      let r ← readBranch proof (proof.length + 1) pos []
      readYproof proof fuel (r.2 + 1) (yproof ++ [r.1])
    else .ok (yproof, pos)

/-- compression.py:49-59: reads yproofs up to `b'----'` or `b'////'`. -/
def readYproofs (proof : List Bytes) : Nat → Nat → List (List (List Bytes)) → Py (List (List (List Bytes)) × Nat)
  | 0, _, _ => .error .diverge
  | fuel + 1, pos, yproofs => do
    let x ← getObj proof pos
    if x ≠ dash ∧ x ≠ slash then do
      let r ← readYproof proof (proof.length + 1) pos []
      readYproofs proof fuel (r.2 + 1) (yproofs ++ [r.1])
    else .ok (yproofs, pos)

/-- compression.py:43-60: the outer loop; returns the items and the position of `b'////'`. -/
def readItems (proof : List Bytes) : Nat → Nat → List Item → Py (List Item × Nat)
  | 0, _, _ => .error .diverge
  | fuel + 1, pos, o => do
    let raw ← pyIdx proof pos
    if raw ≠ slash then do
      let x ← getObj proof pos
      pyAssert (x == dash)
      let root ← getObj proof (pos + 1)
      let r ← readYproofs proof (proof.length + 1) (pos + 2) []
      readItems proof fuel r.2 (o ++ [(root, r.1)])
    else .ok (o, pos)

/-- compression.py:63 `[get_obj(x) for x in range(pos, len(proof))]` -/
def readTail (proof : List Bytes) : List Nat → Py (List Bytes)
  | [] => .ok []
  | p :: ps => do
    let x ← getObj proof p
    let xs ← readTail proof ps
    .ok (x :: xs)

/-- compression.py:35-64 `decompress_fri` -/
def decompressFri (proof : List Bytes) : Py FriProof := do
  let r ← readItems proof (proof.length + 1) 0 []
  let last ← readTail proof (List.range' (r.2 + 1) (proof.length - (r.2 + 1)))
  .ok (r.1, last)

/-- compression.py:1-32 `compress_fri` -/
def compressFri (prf : FriProof) : Py (List Bytes) := do
  let st ← addItems ⟨[], []⟩ prf.1
  let st ← addObj st slash
  let st ← addAll st prf.2
  let d ← decompressFri st.o
  pyAssert (d == prf)
  .ok st.o

/-- compression.py:78-81: `for branch in branches: …` -/
def addBranches : St → List (List Bytes) → Py St
  | st, [] => .ok st
  | st, branch :: rest => do
    let st ← addAll st branch
    let st ← addObj st dash
    addBranches st rest

/-- compression.py:96-98: `while pos < len(proof) and get_obj(pos) != b'----'` -/
def readToDash (proof : List Bytes) : Nat → Nat → List Bytes → Py (List Bytes × Nat)
  | 0, _, _ => .error .diverge
  | fuel + 1, pos, branch =>
    if pos < proof.length then do
      let x ← getObj proof pos
      if x ≠ dash then readToDash proof fuel (pos + 1) (branch ++ [x]) else .ok (branch, pos)
    else .ok (branch, pos)

/-- compression.py:94-100: the outer loop of `decompress_branches`. -/
def readBranches (proof : List Bytes) : Nat → Nat → List (List Bytes) → Py (List (List Bytes))
  | 0, _, _ => .error .diverge
  | fuel + 1, pos, o =>
    if pos < proof.length then do
      let r ← readToDash proof (proof.length + 1) pos []
      readBranches proof fuel (r.2 + 1) (o ++ [r.1])
    else .ok o

/-- compression.py:86-101 `decompress_branches` -/
def decompressBranches (proof : List Bytes) : Py (List (List Bytes)) :=
  readBranches proof (proof.length + 1) 0 []

/-- compression.py:67-83 `compress_branches` -/
def compressBranches (branches : List (List Bytes)) : Py (List Bytes) := do
  let st ← addBranches ⟨[], []⟩ branches
  let d ← decompressBranches st.o
  pyAssert (d == branches)
  .ok st.o

/-- compression.py:104-105 `bin_length` -/
def binLength (c : List Bytes) : Nat :=
  (c.map (fun x => (if x.length = 32 then [255] else []) ++ x)).flatten.length

end Verif.Compression
