/-
Crossing of two segments, split/cross_solver.rs.
-/
import Verif.Segm

namespace IOverlay

/-- `UInt128` (external `i_float::u128`): two 64-bit words. -/
structure U128 where
  high : BitVec 64
  low : BitVec 64
deriving DecidableEq, Repr

/-- `UInt128::multiply` (external contract: exact product of two `u64`). -/
def U128.ofNat (n : Nat) : U128 := ⟨BitVec.ofNat 64 (n / 2 ^ 64), BitVec.ofNat 64 n⟩

def U128.toNat (u : U128) : Nat := u.high.toNat * 2 ^ 64 + u.low.toNat

/-- `u64::leading_zeros` for a positive number: `63 - ⌊log2 d⌋`. -/
def leadingZeros (d : BitVec 64) : Nat := 63 - d.toNat.log2

/-- One iteration of the loop of `divide_with_rounding`, split/cross_solver.rs:332-341; the state is
`(norm_dividend_high, norm_dividend_low, quotient)`. -/
def divStep (normDivisor : BitVec 64) (st : BitVec 64 × BitVec 64 × BitVec 64) :
    BitVec 64 × BitVec 64 × BitVec 64 :=
  let one : BitVec 64 := 1#64 <<< 63
  let bit := (st.1 &&& one) != 0#64
  let high := (st.1 <<< 1) ||| (st.2.1 >>> 63)
  let low := st.2.1 <<< 1
  let quotient := st.2.2 <<< 1
  if decide (high ≥ normDivisor) || bit then (high - normDivisor, low, quotient ||| 1#64)
  else (high, low, quotient)

/-- `n` iterations. -/
def divLoop (normDivisor : BitVec 64) : Nat → BitVec 64 × BitVec 64 × BitVec 64 →
    BitVec 64 × BitVec 64 × BitVec 64
  | 0, st => st
  | n + 1, st => divLoop normDivisor n (divStep normDivisor st)

/-- `UInt128::divide_with_rounding`, split/cross_solver.rs:314-351. (`>>` by 64, which happens for
`dn = 0`, is a panic in debug Rust; the theorems assume `divisor < 2^63`, i.e. `dn ≥ 1`.) -/
def divideWithRounding (u : U128) (divisor : BitVec 64) : BitVec 64 :=
  if u.high == 0#64 then
    let result := u.low / divisor
    let remainder := u.low - result * divisor
    if remainder ≥ (divisor + 1#64) >>> 1 then result + 1#64 else result
  else
    let dn := leadingZeros divisor
    let normDivisor := divisor <<< dn
    let normHigh := (u.high <<< dn) ||| (u.low >>> (64 - dn))
    let normLow := u.low <<< dn
    let st := divLoop normDivisor 64 (normHigh, normLow, 0#64)
    let remainder := (st.1 <<< (64 - dn)) ||| (st.2.1 >>> dn)
    if remainder ≥ (divisor + 1#64) >>> 1 then st.2.2 + 1#64 else st.2.2

/-- `CrossType`, split/cross_solver.rs:61-66. -/
inductive CrossType | pure | targetEnd | otherEnd | overlay
deriving DecidableEq, Repr

/-- `CrossResult`, split/cross_solver.rs:55-59. -/
structure CrossResult where
  point : Pt
  type : CrossType
  isRound : Bool
deriving DecidableEq, Repr

/-- An edge: `XSegment`, geom/x_segment.rs:6-10. -/
structure XSeg where
  a : Pt
  b : Pt
deriving DecidableEq, Repr

def Seg.x {C : Type} (s : Seg C) : XSeg := ⟨s.a, s.b⟩

/-- The product `|a| * |b|` divided by `|div|` through the 128-bit path, split/cross_solver.rs:283-291. -/
def wideDiv (a xyB div : Int) : Int :=
  ((divideWithRounding (U128.ofNat (a.natAbs * xyB.natAbs)) (BitVec.ofNat 64 div.natAbs)).toNat : Int)

/-- `CrossSolver::cross_point`, split/cross_solver.rs:209-302. `i64 /` truncates (`Int.tdiv`);
the final casts `as i64`, `as i32` are the identity in the proved range (C17, C19). -/
def crossPoint (target other : XSeg) : Pt :=
  let a0x := target.a.x
  let a0y := target.a.y
  let a1x := target.b.x - a0x
  let b0x := other.a.x - a0x
  let b1x := other.b.x - a0x
  let a1y := target.b.y - a0y
  let b0y := other.a.y - a0y
  let b1y := other.b.y - a0y
  let dyB := b0y - b1y
  let dxB := b0x - b1x
  let xyB := b0x * b1y - b0y * b1x
  if a1x = 0 then
    ⟨0 + a0x, xyB.tdiv dxB + a0y⟩
  else if a1y = 0 then
    ⟨(-xyB).tdiv dyB + a0x, 0 + a0y⟩
  else
    let div := a1y * dxB - a1x * dyB
    let s := div.sign * xyB.sign
    let sx := a1x.sign * s
    let sy := a1y.sign * s
    let x0 := sx * wideDiv a1x xyB div
    let y0 := sy * wideDiv a1y xyB div
    ⟨x0 + a0x, y0 + a0y⟩

/-- `CrossSolver::middle_cross`, split/cross_solver.rs:151-207. -/
def middleCross (target other : XSeg) (radius : Int) : CrossResult :=
  let p := crossPoint target other
  if isLine target.a p target.b && isLine other.a p other.b then ⟨p, .pure, false⟩
  else
    let ra0 := sqrDist target.a p
    let rb0 := sqrDist target.b p
    let ra1 := sqrDist other.a p
    let rb1 := sqrDist other.b p
    let fallback : CrossResult := ⟨p, .pure, true⟩
    if ra0 ≤ radius ∨ ra1 ≤ radius ∨ rb0 ≤ radius ∨ rb1 ≤ radius then
      let r0 := min ra0 rb0
      let r1 := min ra1 rb1
      if r0 ≤ r1 then
        let e := if ra0 < rb0 then target.a else target.b
        if !isLine other.a e other.b then ⟨e, .targetEnd, true⟩ else fallback
      else
        let e := if ra1 < rb1 then other.a else other.b
        if !isLine target.a e target.b then ⟨e, .otherEnd, true⟩ else fallback
    else fallback

/-- `CrossSolver::cross`, split/cross_solver.rs:72-122. `1 & (d + 1)` is `(d + 1) % 2`. -/
def cross (target other : XSeg) (radius : Int) : Option CrossResult :=
  let a0b0a1 := clockDir target.a target.b other.a
  let a0b0b1 := clockDir target.a target.b other.b
  let a1b1a0 := clockDir other.a other.b target.a
  let a1b1b0 := clockDir other.a other.b target.b
  let s := (a0b0a1 + 1) % 2 + (a0b0b1 + 1) % 2 + (a1b1a0 + 1) % 2 + (a1b1b0 + 1) % 2
  if s = 4 then some ⟨⟨0, 0⟩, .overlay, false⟩
  else
    let isNotCross := a0b0a1 == a0b0b1 || a1b1a0 == a1b1b0
    if s > 1 ∨ isNotCross = true then none
    else if s ≠ 0 then
      if a0b0a1 = 0 then some ⟨other.a, .otherEnd, false⟩
      else if a0b0b1 = 0 then some ⟨other.b, .otherEnd, false⟩
      else if a1b1a0 = 0 then some ⟨target.a, .targetEnd, false⟩
      else some ⟨target.b, .targetEnd, false⟩
    else some (middleCross target other radius)

/-- The four flags of `CollinearMask`, split/cross_solver.rs:7-53. -/
structure Mask where
  targetA : Bool
  targetB : Bool
  otherA : Bool
  otherB : Bool
deriving DecidableEq, Repr

/-- dot product `(p - q) · (r - s)` of `FixVec`s. -/
def dot (p q r s : Pt) : Int := (p.x - q.x) * (r.x - s.x) + (p.y - q.y) * (r.y - s.y)

/-- `CrossSolver::collinear`, split/cross_solver.rs:124-149. -/
def collinear (target other : XSeg) : Mask :=
  let aa0 := (dot target.a other.a other.b other.a).sign
  let ab0 := (dot target.a other.b other.b other.a).sign
  let ba0 := (dot target.b other.a other.b other.a).sign
  let bb0 := (dot target.b other.b other.b other.a).sign
  let aa1 := -aa0
  let ab1 := -ba0
  let ba1 := -ab0
  let bb1 := -bb0
  ⟨aa0 == -ab0 && aa0 != 0, ba0 == -bb0 && ba0 != 0,
   aa1 == -ab1 && aa1 != 0, ba1 == -bb1 && ba1 != 0⟩

end IOverlay
