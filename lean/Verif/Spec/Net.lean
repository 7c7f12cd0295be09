import Verif.Spec.Prefix

/-!
# Specification of IP networks and network maps

A network of an address family is given by its significant bits.  Bytes of addresses and masks are read most
significant bit first, as the Go package `net` documents for `net.IP` and `net.IPMask`.
-/

namespace Verif

/-- Bits of a byte string in network order. -/
def bitsBE (bs : List UInt8) : List Bool := bs.flatMap fun b => sig b.toBitVec 8

/-- Address families. -/
inductive Fam where
  | v4
  | v6
  deriving DecidableEq, Repr

/-- Address length in bytes. -/
def Fam.len : Fam → Nat
  | .v4 => 4
  | .v6 => 16

/-- `net.IPNet` of the Go standard library. -/
structure IPNet where
  ip : List UInt8
  mask : List UInt8
  deriving DecidableEq, Repr

/-- `n` denotes the network of family `f` with the significant bits `p`: address and mask have the length of the
family, the mask consists of `p.length` ones followed by zeros, and the address starts with `p`. -/
def IsNet (n : IPNet) (f : Fam) (p : List Bool) : Prop :=
  n.ip.length = f.len ∧ n.mask.length = f.len ∧ p.length ≤ 8 * f.len ∧
  bitsBE n.mask = List.replicate p.length true ++ List.replicate (8 * f.len - p.length) false ∧ p <+: bitsBE n.ip

/-- Canonical form: host bits are zero. -/
def IsCanonNet (n : IPNet) (f : Fam) (p : List Bool) : Prop :=
  IsNet n f p ∧ bitsBE n.ip = p ++ List.replicate (8 * f.len - p.length) false

/-- First bytes of an IPv4-mapped IPv6 address. -/
def v4in6 : List UInt8 := [0, 0, 0, 0, 0, 0, 0, 0, 0, 0, 0xff, 0xff]

/-- `ip` denotes a single address: 4 bytes or an IPv4-mapped 16-byte address is IPv4, other 16 bytes are IPv6. -/
inductive IsAddr : List UInt8 → Fam → List Bool → Prop where
  | v4 {ip : List UInt8} : ip.length = 4 → IsAddr ip .v4 (bitsBE ip)
  | mapped {tl : List UInt8} : tl.length = 4 → IsAddr (v4in6 ++ tl) .v4 (bitsBE tl)
  | v6 {ip : List UInt8} : ip.length = 16 → ¬ v4in6 <+: ip → IsAddr ip .v6 (bitsBE ip)

/-- What a history (newest first) leaves stored in one family. -/
def lastNet {V : Type} (ops : List (Fam × POp V)) (f : Fam) : PMap V :=
  lastWrite ((ops.filter fun o => o.1 = f).map Prod.snd)

/-- Big-endian number of a byte string: the address as a number. -/
def beNat (bs : List UInt8) : Nat := bs.foldl (fun a b => 256 * a + b.toNat) 0

/-- Number of ones of a mask. -/
def onesOf (m : List UInt8) : Nat := (bitsBE m).count true

/-- Enumeration order: IPv4 before IPv6, then by address, then by prefix length. -/
def NetBefore (a b : IPNet) : Prop :=
  a.ip.length < b.ip.length ∨ (a.ip.length = b.ip.length ∧
    (beNat a.ip < beNat b.ip ∨ (beNat a.ip = beNat b.ip ∧ onesOf a.mask < onesOf b.mask)))

/-- `k` is a network of family `f` strictly inside the one with the significant bits `p`. -/
def strictlyBelow (f : Fam) (p : List Bool) (k : IPNet) : Bool :=
  k.ip.length == f.len && p.isPrefixOf ((bitsBE k.ip).take (onesOf k.mask)) && decide (p.length < onesOf k.mask)

/-- What updating the strict descendants of `p` does to a listing: the callback (which may keep a state) is called in
order for each of them with key and value; the value is replaced if it says so. -/
def updateBelow {V σ : Type} (cb : σ → IPNet → V → (V × Bool) × σ) (f : Fam) (p : List Bool) :
    List (IPNet × V) → σ → List (IPNet × V) × σ
  | [], s => ([], s)
  | (k, v) :: xs, s =>
    if strictlyBelow f p k then
      let r := cb s k v
      let rest := updateBelow cb f p xs r.2
      ((k, if r.1.2 then r.1.1 else v) :: rest.1, rest.2)
    else
      let rest := updateBelow cb f p xs s
      ((k, v) :: rest.1, rest.2)

end Verif
