import Verif.Core.Bytes

/-!
# Package domain

Strings are byte lists.  Fixed-size output buffers (`label [64]byte`, `name [255]byte`, `label [252]byte`,
`offs [127]int`) are the lists of the bytes written so far; the bounds checks against the buffer sizes are kept.
The errors' texts are not modelled.
-/

namespace Verif.Domain

/-- The package's error values. domain/name.go:10-21. -/
inductive Err where
  | tooManyLabels | emptyLabel | labelTooLong | nameTooLong | invalidEscape
  deriving Repr, DecidableEq

/-- Outcome of a Go call: value, error return, or panic. -/
inductive Res (α : Type) where
  | ok (a : α)
  | err (e : Err)
  | panic
  deriving Repr, DecidableEq

/-- domain/name.go:29-36. -/
def MaxName : Nat := 255
/-- domain/name.go:33. -/
def MaxLabels : Nat := MaxName / 2
/-- domain/name.go:35. -/
def MaxLabel : Nat := 63

/-- Scanner state. domain/label.go:8-13; `code` is kept in the states that use it (int arithmetic in Go,
never above 999). -/
inductive Esc where
  | regular
  | firstChar
  | secondDigit (code : Nat)
  | thirdDigit (code : Nat)
  deriving Repr, DecidableEq

/-- `c < '0' || c > '9'`. domain/label.go:106,118,130. -/
def notDigit (c : UInt8) : Bool := c < 48 || 57 < c

/-- `int(c - '0')` for a digit. domain/label.go:109,122,134. -/
def digit (c : UInt8) : Nat := (c - 48).toNat

/-- `if c >= 'a' && c <= 'z' { c &= 0xdf }`. domain/label.go:171-173,195-197,239-241. -/
def upper (c : UInt8) : UInt8 := if 97 ≤ c && c ≤ 122 then c &&& 0xdf else c

/-- The loop of `markLabels`. domain/label.go:82-156.  `s` is the rest of the string from index `i`, `offs` the
offsets stored so far (`n = len`), `cap` is `len(offs)`. -/
def markLoop (cap : Nat) : Esc → Nat → Nat → List Nat → Bytes → Res (List Nat)
  | .regular, i, start, offs, [] =>
    if start < i then
      if cap ≤ offs.length then .err .tooManyLabels else .ok (offs ++ [start])
    else .ok offs
  | _, _, _, _, [] => .err .invalidEscape
  | .regular, i, start, offs, c :: cs =>
    if c = 46 then
      if i ≤ start then .err .emptyLabel
      else if cap ≤ offs.length then .err .tooManyLabels
      else markLoop cap .regular (i + 1) (i + 1) (offs ++ [start]) cs
    else if c = 92 then markLoop cap .firstChar (i + 1) start offs cs
    else markLoop cap .regular (i + 1) start offs cs
  | .firstChar, i, start, offs, c :: cs =>
    if notDigit c then markLoop cap .regular (i + 1) start offs cs
    else
      let code := digit c * 100
      if 255 < code then .err .invalidEscape else markLoop cap (.secondDigit code) (i + 1) start offs cs
  | .secondDigit code, i, start, offs, c :: cs =>
    if notDigit c then .err .invalidEscape
    else
      let code := code + digit c * 10
      if 255 < code then .err .invalidEscape else markLoop cap (.thirdDigit code) (i + 1) start offs cs
  | .thirdDigit code, i, start, offs, c :: cs =>
    if notDigit c then .err .invalidEscape
    else
      let code := code + digit c
      if 255 < code then .err .invalidEscape else markLoop cap .regular (i + 1) start offs cs

/-- domain/label.go:77-157 `markLabels`. -/
def markLabels (s : Bytes) (cap : Nat) : Res (List Nat) := markLoop cap .regular 0 0 [] s

/-- The loop of `getLabel`. domain/label.go:164-252.  `out` holds `out[1:j]`, so `j = out.length + 1`;
`len(out)` is `MaxLabel + 1` in both callers. -/
def getLoop : Esc → Bytes → Bytes → Res Bytes
  | .regular, out, [] => .ok out
  | _, _, [] => .err .invalidEscape
  | .regular, out, c :: cs =>
    if c = 46 then
      if cs.isEmpty then .ok out else .panic
    else if c = 92 then getLoop .firstChar out cs
    else if MaxLabel + 1 ≤ out.length + 1 then .err .labelTooLong else getLoop .regular (out ++ [upper c]) cs
  | .firstChar, out, c :: cs =>
    if notDigit c then
      if MaxLabel + 1 ≤ out.length + 1 then .err .labelTooLong else getLoop .regular (out ++ [upper c]) cs
    else
      let code := digit c * 100
      if 255 < code then .err .invalidEscape else getLoop (.secondDigit code) out cs
  | .secondDigit code, out, c :: cs =>
    if notDigit c then .err .invalidEscape
    else
      let code := code + digit c * 10
      if 255 < code then .err .invalidEscape else getLoop (.thirdDigit code) out cs
  | .thirdDigit code, out, c :: cs =>
    if notDigit c then .err .invalidEscape
    else
      let code := code + digit c
      if 255 < code then .err .invalidEscape
      else if MaxLabel + 1 ≤ out.length + 1 then .err .labelTooLong
      else getLoop .regular (out ++ [upper (UInt8.ofNat code)]) cs

/-- domain/label.go:159-261 `getLabel`: the label bytes without the length byte `out[0]`. -/
def getLabel (s : Bytes) : Res Bytes := getLoop .regular [] s

/-- domain/label.go:15-25 `MakeLabel`. -/
def MakeLabel (s : Bytes) : Res Bytes := getLabel s

/-- The loop of `MakeHumanReadableLabel`. domain/label.go:32-74; `none` is the index-out-of-range panic at :62. -/
def humanLoop : Bytes → Bytes → Option Bytes
  | out, [] => some out
  | out, c :: cs =>
    if c = 46 || c = 92 then
      if 4 * MaxLabel - 1 ≤ out.length then some out else humanLoop (out ++ [92, c]) cs
    else if c < 33 || 126 < c then
      if 4 * MaxLabel - 3 ≤ out.length then some out
      else humanLoop (out ++ [92, c / 10 / 10 + 48, c / 10 % 10 + 48, c % 10 + 48]) cs
    else if 65 ≤ c && c ≤ 90 then
      if 4 * MaxLabel ≤ out.length then none else humanLoop (out ++ [c ||| 0x20]) cs
    else
      if 4 * MaxLabel ≤ out.length then some out else humanLoop (out ++ [c]) cs

/-- domain/label.go:27-75 `MakeHumanReadableLabel`. -/
def MakeHumanReadableLabel (s : Bytes) : Option Bytes := humanLoop [] s

/-- domain/name.go:23-27 `Name`. -/
structure Name where
  h : Bytes
  c : Bytes
  deriving Repr, DecidableEq

/-- Go slice `s[a:b]`. -/
def slice (s : Bytes) (a b : Nat) : Bytes := (s.take b).drop a

/-- The loop of `MakeNameFromString` over the offsets, last one first. domain/name.go:62-79. -/
def nameLoop (s : Bytes) : List Nat → Nat → Bytes → Res Bytes
  | [], _, name => .ok name
  | start :: offs, e, name =>
    match getLabel (slice s start e) with
    | .ok label =>
      if MaxName < name.length + (label.length + 1) then .err .nameTooLong
      else nameLoop s offs start (name ++ UInt8.ofNat label.length :: label)
    | .err e => .err e
    | .panic => .panic

/-- domain/name.go:38-84 `MakeNameFromString`. -/
def MakeNameFromString (s : Bytes) : Res Name :=
  if s.length < 1 then .ok ⟨s, []⟩
  else if s = [46] then .ok ⟨s, []⟩
  else
    match markLabels s MaxLabels with
    | .ok offs =>
      match nameLoop s offs.reverse s.length [] with
      | .ok c => .ok ⟨s, c⟩
      | .err e => .err e
      | .panic => .panic
    | .err e => .err e
    | .panic => .panic

/-- A `reflect.Value`, as far as `MakeNameFromReflection` looks at it: by exact type, so values of types defined from `string` are
`other`. -/
inductive RVal where
  /-- the zero Value, which wraps nothing -/
  | zero
  /-- a `string` -/
  | str (s : Bytes)
  /-- a `Name` -/
  | name (n : Name)
  /-- a pointer that is not nil, and the value it points to -/
  | ptr (v : RVal)
  /-- a nil pointer -/
  | nilPtr
  /-- anything else -/
  | other

/-- `v.Elem()` of a pointer, which is the zero Value for nil; other values stay. domain/name.go:94-96. -/
def RVal.elem : RVal → RVal
  | .ptr v => v
  | .nilPtr => .zero
  | v => v

/-- domain/name.go:91-113 `MakeNameFromReflection`; `none` is a panic, at :93 or :98 for the zero Value (`Type` of it panics), at :103 or
:112 otherwise. -/
def MakeNameFromReflection (v : RVal) : Option Name :=
  match v with
  | .zero => none
  | v =>
    match v.elem with
    | .str s =>
      match MakeNameFromString s with
      | .ok n => some n
      | _ => none
    | .name n => some ⟨n.h, n.c⟩
    | _ => none

/-- domain/name.go:115-118 `String`. -/
def Name.String (n : Name) : Bytes := n.h

/-- domain/name.go:120-142 `GetLabel`. -/
def Name.GetLabel (n : Name) (off : Int) : Bytes × Int :=
  if off = 0 && n.c.length = 0 then ([], 0)
  else if off < 0 || n.c.length ≤ off then ([], -1)
  else
    let size := (n.c.getD off.toNat 0).toNat
    if size < 1 || 63 < size then ([], -1)
    else
      let start := off.toNat + 1
      let e := start + size
      if n.c.length ≤ e then (n.c.drop start, 0) else (slice n.c start e, e)

/-- The loop of `GetLabels`. domain/name.go:146-156.  The callback `f` is a function on the captured state `σ` that may
return an error.  `none` is a slice-out-of-range panic or exhausted fuel. -/
def getLabelsLoop {σ E : Type} (f : σ → Bytes → σ × Option E) (c : Bytes) : Nat → Nat → σ → Option (σ × Option E)
  | 0, _, _ => none
  | fuel + 1, off, st =>
    if off < c.length then
      let off := off + 1
      let next := off + (c.getD (off - 1) 0).toNat
      if c.length < next then none
      else
        match f st (slice c off next) with
        | (st, some e) => some (st, some e)
        | (st, none) => getLabelsLoop f c fuel next st
    else some (st, none)

/-- domain/name.go:144-159 `GetLabels`. Each iteration advances the offset, so `len(c)+1` iterations are enough. -/
def Name.GetLabels {σ E : Type} (n : Name) (f : σ → Bytes → σ × Option E) (st : σ) : Option (σ × Option E) :=
  getLabelsLoop f n.c (n.c.length + 1) 0 st

end Verif.Domain
