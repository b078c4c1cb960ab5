import Verif.Model.BlockchainJson
import Verif.Spec.RandomHash
/-!
# Model of the hashes of `misc/blockchain.py`: `json.dumps`, `hexdigest`, `valid_proof`

`Model/BlockchainJson` leaves `hash` and `valid_proof` open.  Here they are built, as in the code, from SHA-256, which is any function from
byte strings to 32-byte strings.  The text of a number is left open (`Texts.dump`, `Texts.str`), and so is `str(x)` of values that are not
numbers, which `valid_proof` meets when a peer sends a block whose proof is not one.
-/

namespace Verif.ChainHash
open Verif.ChainJson

/-- The digits `0`-`9`, `a`-`f`. -/
def hexDigit (n : Nat) : UInt8 := UInt8.ofNat (if n < 10 then 48 + n else 87 + n)

/-- `\uXXXX` (the format `'\\u{0:04x}'` of the `json` module). -/
def u4 (n : Nat) : Bytes := [92, 117, hexDigit (n / 4096 % 16), hexDigit (n / 256 % 16), hexDigit (n / 16 % 16), hexDigit (n % 16)]

/-- One character in a JSON text, as `json.dumps` with `ensure_ascii` writes it (blockchain.py:155): a quote, a backslash and five control
characters get a backslash; printable ASCII characters stay; all others become `\uXXXX`, or two of these above `U+FFFF`. -/
def escape (n : Nat) : Bytes :=
  if n = 34 then [92, 34]
  else if n = 92 then [92, 92]
  else if n = 10 then [92, 110]
  else if n = 13 then [92, 114]
  else if n = 9 then [92, 116]
  else if n = 12 then [92, 102]
  else if n = 8 then [92, 98]
  else if 32 ≤ n ∧ n ≤ 126 then [UInt8.ofNat n]
  else if n < 65536 then u4 n
  else u4 (55296 + (n - 65536) / 1024 % 1024) ++ u4 (56320 + (n - 65536) % 1024)

/-- A string between quotes (blockchain.py:155). -/
def strText (s : String) : Bytes := 34 :: (s.toList.flatMap (fun c => escape c.toNat) ++ [34])

/-- `", ".join(items)` (the default separator of `json.dumps`). -/
def joinItems : List Bytes → Bytes
  | [] => []
  | [a] => a
  | a :: b :: l => a ++ 44 :: 32 :: joinItems (b :: l)

/-- A dictionary has each key once; in `Json` the first occurrence counts. -/
def dedupe {β : Type} : List (String × β) → List (String × β)
  | [] => []
  | e :: l => e :: (dedupe l).filter fun e' => e'.1 ≠ e.1

/-- Insertion into a list sorted by keys. -/
def insertKey {β : Type} (e : String × β) : List (String × β) → List (String × β)
  | [] => [e]
  | e' :: l => if e.1 < e'.1 then e :: e' :: l else e' :: insertKey e l

/-- `sorted(items)` (blockchain.py:155, `sort_keys=True`); keys are different, so values are not compared. -/
def sortKeys {β : Type} : List (String × β) → List (String × β)
  | [] => []
  | e :: l => insertKey e (sortKeys l)

/-- The text of a dictionary from the texts of its values, with the default separators. -/
def objText (l : List (String × Bytes)) : Bytes := 123 :: (joinItems ((sortKeys (dedupe l)).map fun e => strText e.1 ++ 58 :: 32 :: e.2) ++ [125])

mutual
/-- blockchain.py:155 `json.dumps(block, sort_keys=True).encode()`; `num` gives the texts of numbers. -/
def dumps {N : Type} (num : N → Bytes) : Json N → Bytes
  | .null => [110, 117, 108, 108]
  | .bool true => [116, 114, 117, 101]
  | .bool false => [102, 97, 108, 115, 101]
  | .num n => num n
  | .str s => strText s
  | .arr l => 91 :: (joinItems (dumpsList num l) ++ [93])
  | .obj l => objText (dumpsEntries num l)
/-- The texts of the items of a list. -/
def dumpsList {N : Type} (num : N → Bytes) : List (Json N) → List Bytes
  | [] => []
  | a :: l => dumps num a :: dumpsList num l
/-- The texts of the values of a dictionary. -/
def dumpsEntries {N : Type} (num : N → Bytes) : List (String × Json N) → List (String × Bytes)
  | [] => []
  | (k, a) :: l => (k, dumps num a) :: dumpsEntries num l
end

/-- blockchain.py:156 `.hexdigest()` -/
def hexdigest (d : Digest) : String := String.ofList (d.1.flatMap fun b => [Char.ofNat (hexDigit (b.toNat / 16)).toNat, Char.ofNat (hexDigit (b.toNat % 16)).toNat])

/-- `s.encode()`: UTF-8. -/
def utf8 (s : String) : Bytes := s.toList.flatMap String.utf8EncodeChar

/-- The texts left open: of a number in JSON (`dump`), and of any value in an f-string (`str`), encoded. -/
structure Texts (N : Type) where
  dump : N → Bytes
  str : Json N → Bytes

/-- `str(n)` of a natural number, encoded. -/
def natText (n : Nat) : Bytes := (Nat.toDigits 10 n).map fun c => UInt8.ofNat c.toNat

/-- `str(n)` of an int, which is also its JSON text. -/
def intText : Int → Bytes
  | .ofNat n => natText n
  | .negSucc n => 45 :: natText (n + 1)

/-- The texts when all numbers are ints. (`str` of values that are no numbers is not what Python writes: only numbers matter here.) -/
def intTexts : Texts Int := ⟨intText, fun | .num n => intText n | j => dumps intText j⟩

variable {N : Type} (T : Texts N) (sha : Bytes → Digest)

/-- blockchain.py:146-156 `hash` -/
def blockHash (b : Json N) : String := hexdigest (sha (dumps T.dump b))

/-- blockchain.py:190 `f'{last_proof}{proof}{last_hash}'.encode()` -/
def guess (lastProof proof : Json N) (lastHash : String) : Bytes := T.str lastProof ++ T.str proof ++ utf8 lastHash

/-- blockchain.py:178-192 `valid_proof` -/
def validProof (lastProof proof : Json N) (lastHash : String) : Bool :=
  (hexdigest (sha (guess T lastProof proof lastHash))).toList.take 4 == ['0', '0', '0', '0']

/-- The functions of `Model/BlockchainJson` with these hashes. -/
def world (W : World N) : World N := { W with hash := blockHash T sha, vp := validProof T sha }

end Verif.ChainHash
