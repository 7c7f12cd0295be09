import Verif.Core.Bytes
import Verif.Spec.Net

/-!
# The parts of Go's package net that iptree uses

Written after the documented behaviour and source of the standard library (assumption recorded in DESIGN.md).
-/

namespace Verif.IP

/-- net/ip.go `simpleMaskLength`, inner loop `for v&0x80 != 0 { n++; v <<= 1 }`; eight rounds empty a byte. -/
def onesLoop : Nat → UInt8 → Nat × UInt8
  | 0, v => (0, v)
  | fuel + 1, v => if v &&& 0x80 ≠ 0 then ((onesLoop fuel (v <<< 1)).1 + 1, (onesLoop fuel (v <<< 1)).2) else (0, v)

/-- net/ip.go `simpleMaskLength`; `none` is -1. -/
def simpleMaskLength : Bytes → Option Nat
  | [] => some 0
  | v :: rest =>
    if v = 0xff then (simpleMaskLength rest).map (· + 8)
    else if (onesLoop 8 v).2 ≠ 0 then none
    else if rest.all (· == 0) then some (onesLoop 8 v).1
    else none

/-- net/ip.go `IPMask.Size`. -/
def maskSize (m : Bytes) : Nat × Nat :=
  match simpleMaskLength m with
  | none => (0, 0)
  | some n => (n, 8 * m.length)

/-- net/ip.go `CIDRMask`, the loop over the bytes of the mask. -/
def cidrBytes : Nat → Nat → Bytes
  | 0, _ => []
  | l + 1, n => if 8 ≤ n then 0xff :: cidrBytes l (n - 8) else (~~~ ((0xff : UInt8) >>> UInt8.ofNat n)) :: cidrBytes l 0

/-- net/ip.go `CIDRMask(ones, bits)`; nil for sizes other than 32 and 128 or ones out of range. -/
def cidrMask (ones bits : Nat) : Bytes :=
  if (bits = 32 ∨ bits = 128) ∧ ones ≤ bits then cidrBytes (bits / 8) ones else []

/-- net/ip.go `IP.Mask` for address and mask of the same length (the only use in iptree). -/
def maskIP (ip mask : Bytes) : Bytes := ip.zipWith (· &&& ·) mask

/-- net/ip.go `IP.To4`. -/
def to4 (ip : Bytes) : Option Bytes :=
  if ip.length = 4 then some ip
  else if ip.length = 16 ∧ (ip.take 10).all (· == 0) ∧ ip[10]? = some 0xff ∧ ip[11]? = some 0xff then some (ip.drop 12)
  else none

/-- net/ip.go `IP.To16`. -/
def to16 (ip : Bytes) : Option Bytes :=
  if ip.length = 4 then some (v4in6 ++ ip)
  else if ip.length = 16 then some ip
  else none

end Verif.IP
