import Verif.Uuid.Model
import Verif.Hex.Props
import Verif.Sha1.Props

/-!
# What the UUID texts are, independent of the code
-/

namespace ZT.Uuid.Spec

/-- Big-endian value of a byte string. -/
def beVal (l : List Byte) : Nat := l.foldl (fun x b => x * 256 + b.toNat) 0

/-- `0-9a-zA-Z`. -/
def alpha (d : Nat) : Byte :=
  if d < 10 then UInt8.ofNat (48 + d) else if d < 36 then UInt8.ofNat (97 + (d - 10)) else UInt8.ofNat (65 + (d - 36))

/-- `v` as `n` base-62 digits, most significant first. -/
def b62 (n v : Nat) : List Byte := (List.range n).map fun k => alpha (v / 62 ^ (n - 1 - k) % 62)

/-- The text of a UUID in each format. -/
def text (u : List Byte) : Fmt → List Byte
  | .short => Hex.text u
  | .std =>
      let h := Hex.text u
      h.take 8 ++ [45] ++ (h.drop 8).take 4 ++ [45] ++ (h.drop 12).take 4 ++ [45] ++ (h.drop 16).take 4 ++ [45] ++ h.drop 20
  | .base62 => b62 11 (beVal (u.take 8)) ++ b62 11 (beVal (u.drop 8))
  | .base62hash => (b62 11 (beVal (u.take 8))).reverse ++ b62 11 (beVal (u.drop 8))

/-- Documented text lengths (zt_uuid.h: UUID_STR_LEN ...). -/
def len : Fmt → Nat
  | .std => 36
  | .short => 32
  | .base62 => 22
  | .base62hash => 22

end ZT.Uuid.Spec
