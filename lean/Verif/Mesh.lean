/-
The edges registered by strokes and outlines (mesh/stroke/*.rs, mesh/outline/*.rs, mesh/miter.rs,
mesh/rotator.rs, mesh/math.rs), over arbitrary floating point operations.
-/
import Verif.Offset

namespace IOverlay

/-- The operations of the external crate `i_float` on numbers `T` and points `P`. Nothing is assumed about
them: what is proved holds for any rounding, infinities and not-a-number included. `toInt` is
`FloatPointAdapter::float_to_int` for the adapter of the call. `arcCount`, `arcRotator` are the `f64`
computations of the round joins (mesh/stroke/builder_join.rs:252-255, 267; mesh/outline/builder_join.rs:238-241,
248): the number of steps `cnt`, and the cosine and sine of the step for either direction of rotation (`true`:
clockwise, as for strokes), as functions of the dot product of the two directions. -/
structure FloatOps (T P : Type) where
  toInt : P → Pt
  fromXY : T → T → P
  x : P → T
  y : P → T
  vAdd : P → P → P
  vSub : P → P → P
  vScale : P → T → P
  normalize : P → P
  dot : P → P → T
  cross : P → P → T
  add : T → T → T
  sub : T → T → T
  mul : T → T → T
  div : T → T → T
  neg : T → T
  abs : T → T
  lt : T → T → Bool
  le : T → T → Bool
  zero : T
  eps : T
  arcCount : T → Nat
  arcRotator : Bool → T → T × T

section
variable {T P : Type} (o : FloatOps T P)

/-- `Math::normal`, mesh/math.rs:9-13. -/
def FloatOps.normal (a b : P) : P := o.normalize (o.vSub a b)

/-- `Math::ortho_and_scale`, mesh/math.rs:15-19. -/
def FloatOps.orthoScale (p : P) (s : T) : P := o.vScale (o.fromXY (o.neg (o.y p)) (o.x p)) s

/-- `Rotator::new(cs, sn)` followed by `rotate`, mesh/rotator.rs:13-26, 41-48. -/
def FloatOps.rotate (cs sn : T) (v : P) : P :=
  o.fromXY (o.add (o.mul cs (o.x v)) (o.mul (o.neg sn) (o.y v))) (o.add (o.mul sn (o.x v)) (o.mul cs (o.y v)))

/-- `SharpMiter`, mesh/miter.rs:8-12. -/
inductive SharpMiter where
  | degenerate
  | ab (a b : Pt)
  | acb (a c b : Pt)
deriving DecidableEq, Repr

/-- `Miter::sharp`, mesh/miter.rs:14-59. -/
def FloatOps.sharp (pa pb va vb : P) : SharpMiter :=
  let ia := o.toInt pa
  let ib := o.toInt pb
  if ia = ib then .degenerate
  else
    let xx := o.add (o.x va) (o.x vb)
    let yy := o.add (o.y va) (o.y vb)
    let k := if o.lt (o.abs yy) (o.abs xx) then o.div (o.sub (o.x pb) (o.x pa)) xx
      else o.div (o.sub (o.y pb) (o.y pa)) yy
    let ic := o.toInt (o.fromXY (o.add (o.x pa) (o.mul k (o.x va))) (o.add (o.y pa) (o.mul k (o.y va))))
    if ia = ic ∨ ib = ic then .ab ia ib else .acb ia ic ib

/-! ### strokes -/

/-- `Section`, mesh/stroke/section.rs:10-20. -/
structure Section (P : Type) where
  a : P
  b : P
  aTop : P
  bTop : P
  aBot : P
  bBot : P
  dir : P

/-- `Section::new`, mesh/stroke/section.rs:22-43. -/
def FloatOps.section (radius : T) (a b : P) : Section P :=
  let dir := o.normal b a
  let t := o.orthoScale dir radius
  ⟨a, b, o.vAdd a t, o.vAdd b t, o.vSub a t, o.vSub b t, dir⟩

/-- `add_section`, mesh/stroke/section.rs:51-59. -/
def FloatOps.addSection (s : Section P) : List (Seg CountOff) :=
  [boldAB (o.toInt s.bTop) (o.toInt s.aTop), boldAB (o.toInt s.aBot) (o.toInt s.bBot)]

/-- The loop over the points of a cap, mesh/stroke/builder_cap.rs:74-80, 90-96: edges and last point. -/
def capLoop : Pt → List Pt → List (Seg CountOff) × Pt
  | a, [] => ([], a)
  | a, b :: rest => let r := capLoop b rest; (boldAB a b :: r.1, r.2)

/-- `CapBuilder`, mesh/stroke/builder_cap.rs:14-18: the points of the cap scaled by the radius; `none` for
`LineCap::Butt`. The points of `LineCap::Square` and `LineCap::Round` (lines 33-56) are computed from the
style; here any list. -/
abbrev CapPoints (P : Type) := Option (List P)

/-- `add_to_start`, mesh/stroke/builder_cap.rs:69-84. -/
def FloatOps.addToStart (cap : CapPoints P) (s : Section P) : List (Seg CountOff) :=
  let r := capLoop (o.toInt s.aTop) ((cap.getD []).map fun p =>
    o.toInt (o.vAdd (o.rotate (o.neg (o.x s.dir)) (o.neg (o.y s.dir)) p) s.a))
  r.1 ++ [boldAB r.2 (o.toInt s.aBot)]

/-- `add_to_end`, mesh/stroke/builder_cap.rs:86-100. -/
def FloatOps.addToEnd (cap : CapPoints P) (s : Section P) : List (Seg CountOff) :=
  let r := capLoop (o.toInt s.bBot) ((cap.getD []).map fun p =>
    o.toInt (o.vAdd (o.rotate (o.x s.dir) (o.y s.dir) p) s.b))
  r.1 ++ [boldAB r.2 (o.toInt s.bTop)]

/-- The three join builders, mesh/stroke/builder_join.rs:24, 88-92, 216-221 (and, with `expand`,
mesh/outline/builder_join.rs:24, 77-82, 186-193), with the parameters computed by their constructors. -/
inductive Join (T : Type) where
  | bevel
  | miter (limitDot maxLength : T) (expand : Bool)
  | round (limitDot radius : T) (expand : Bool)

/-- `BevelJoinBuilder::add_segment`, mesh/stroke/builder_join.rs:48-60. -/
def bevelEdge (ia ib : Pt) : List (Seg CountOff) := if ia ≠ ib then [boldAB ib ia] else []

/-- `BevelJoinBuilder::join_top`, mesh/stroke/builder_join.rs:28-36. -/
def FloatOps.joinTop (s0 s1 : Section P) : List (Seg CountOff) := bevelEdge (o.toInt s0.bTop) (o.toInt s1.aTop)

/-- `BevelJoinBuilder::join_bot`, mesh/stroke/builder_join.rs:38-46. -/
def FloatOps.joinBot (s0 s1 : Section P) : List (Seg CountOff) := bevelEdge (o.toInt s1.aBot) (o.toInt s0.bBot)

/-- The loop of the round join, mesh/stroke/builder_join.rs:269-281: edges pushed and last point. `ps` are the
points `float_to_int(p)` of the steps. -/
def arcLoop (push : Pt → Pt → Seg CountOff) : Pt → List Pt → List (Seg CountOff) × Pt
  | a, [] => ([], a)
  | a, b :: rest =>
    if a ≠ b then let r := arcLoop push b rest; (push a b :: r.1, r.2) else arcLoop push a rest

/-- The points of the steps, mesh/stroke/builder_join.rs:272-276: `v` is rotated `n` times. -/
def FloatOps.arcPoints (cs sn radius : T) (center : P) : Nat → P → List Pt
  | 0, _ => []
  | n + 1, v =>
    let v' := o.rotate cs sn v
    o.toInt (o.vAdd center (o.vScale v' radius)) :: arcPoints cs sn radius center n v'

/-- `MiterJoinBuilder::add_join`, mesh/stroke/builder_join.rs:118-203. -/
def FloatOps.miterJoin (limitDot maxLength : T) (s0 s1 : Section P) : List (Seg CountOff) :=
  let cp := o.cross s0.dir s1.dir
  if o.lt (o.abs cp) o.eps then o.joinTop s0 s1 ++ o.joinBot s0 s1
  else
    let turn := o.lt o.zero cp
    if o.lt (o.dot s0.dir s1.dir) limitDot then
      let q : List (Seg CountOff) × P × P × P × P :=
        if turn then
          let pa := s1.aBot
          let pb := s0.bBot
          let va := s1.dir
          let vb := s0.dir
          (o.joinTop s0 s1, pa, pb,
            o.fromXY (o.sub (o.x pa) (o.mul maxLength (o.x va))) (o.sub (o.y pa) (o.mul maxLength (o.y va))),
            o.fromXY (o.add (o.x pb) (o.mul maxLength (o.x vb))) (o.add (o.y pb) (o.mul maxLength (o.y vb))))
        else
          let pa := s0.bTop
          let pb := s1.aTop
          let va := s0.dir
          let vb := s1.dir
          (o.joinBot s0 s1, pa, pb,
            o.fromXY (o.add (o.x pa) (o.mul maxLength (o.x va))) (o.add (o.y pa) (o.mul maxLength (o.y va))),
            o.fromXY (o.sub (o.x pb) (o.mul maxLength (o.x vb))) (o.sub (o.y pb) (o.mul maxLength (o.y vb))))
      let ia := o.toInt q.2.1
      let ib := o.toInt q.2.2.1
      if ia = ib then q.1
      else
        let iac := o.toInt q.2.2.2.1
        let ibc := o.toInt q.2.2.2.2
        q.1 ++ (if ia ≠ iac then [boldAB iac ia] else []) ++ (if iac ≠ ibc then [boldAB ibc iac] else []) ++
          (if ibc ≠ ib then [boldAB ib ibc] else [])
    else
      let q : List (Seg CountOff) × P × P × P × P :=
        if turn then (o.joinTop s0 s1, s1.aBot, s0.bBot, s1.dir, s0.dir)
        else (o.joinBot s0 s1, s0.bTop, s1.aTop, s0.dir, s1.dir)
      q.1 ++ match o.sharp q.2.1 q.2.2.1 q.2.2.2.1 q.2.2.2.2 with
        | .ab a b => [boldAB b a]
        | .acb a c b => [boldAB c a, boldAB b c]
        | .degenerate => []

/-- `RoundJoinBuilder::add_join`, mesh/stroke/builder_join.rs:238-287. -/
def FloatOps.roundJoin (limitDot radius : T) (s0 s1 : Section P) : List (Seg CountOff) :=
  let dp := o.dot s0.dir s1.dir
  if o.lt limitDot dp then o.joinTop s0 s1 ++ o.joinBot s0 s1
  else
    let q : List (Seg CountOff) × P × P × P :=
      if o.lt o.zero (o.cross s0.dir s1.dir) then
        (o.joinTop s0 s1, s1.aBot, s0.bBot, o.fromXY (o.y s1.dir) (o.neg (o.x s1.dir)))
      else (o.joinBot s0 s1, s0.bTop, s1.aTop, o.fromXY (o.neg (o.y s0.dir)) (o.x s0.dir))
    let rot := o.arcRotator true dp
    let r := arcLoop (fun a b => boldAB b a) (o.toInt q.2.1)
      (o.arcPoints rot.1 rot.2 radius s0.b (o.arcCount dp - 1) q.2.2.2)
    let b := o.toInt q.2.2.1
    q.1 ++ r.1 ++ (if r.2 ≠ b then [boldAB b r.2] else [])

/-- `JoinBuilder::add_join` of the three builders (mesh/stroke/builder_join.rs:65-75 for the bevel). -/
def FloatOps.addJoin (j : Join T) (s0 s1 : Section P) : List (Seg CountOff) :=
  match j with
  | .bevel => o.joinTop s0 s1 ++ o.joinBot s0 s1
  | .miter limitDot maxLength _ => o.miterJoin limitDot maxLength s0 s1
  | .round limitDot radius _ => o.roundJoin limitDot radius s0 s1

/-- The remaining points from the first one not equal to `ip0` on (loops of mesh/stroke/builder.rs:144-149 and
162-166, and `next_unique_point`, lines 211-221). -/
def FloatOps.skipEqual (ip0 : Pt) : List P → List P
  | [] => []
  | p :: rest => if o.toInt p = ip0 then skipEqual ip0 rest else p :: rest

theorem FloatOps.skipEqual_length (ip0 : Pt) (l : List P) : (o.skipEqual ip0 l).length ≤ l.length := by
  induction l with
  | nil => exact Nat.le_refl _
  | cons p rest ih => unfold skipEqual; split <;> simp; omega

/-- The main loop of `open_segments` (mesh/stroke/builder.rs:157-174) and of `closed_segments` (lines 196-205):
sections and joins up to the last point, and the last section. `ip0` is the integer image of the end of `s0`. -/
def FloatOps.sectionLoop (radius : T) (j : Join T) (s0 : Section P) (ip0 : Pt) :
    List P → List (Seg CountOff) × Section P
  | [] => ([], s0)
  | p :: rest =>
    if o.toInt p = ip0 then sectionLoop radius j s0 ip0 rest
    else
      let s1 := o.section radius s0.b p
      let r := sectionLoop radius j s1 (o.toInt p) rest
      (o.addJoin j s0 s1 ++ o.addSection s1 ++ r.1, r.2)

/-- `open_segments`, mesh/stroke/builder.rs:133-177. `none`: `path[0]` or `path[1]` out of range. -/
def FloatOps.openSegments (radius : T) (j : Join T) (startCap endCap : CapPoints P) (path : List P) :
    Option (List (Seg CountOff)) :=
  match path with
  | [] => none
  | [_] => none
  | p0 :: rest =>
    match o.skipEqual (o.toInt p0) rest with
    | [] => some []
    | p :: rest =>
      let s0 := o.section radius p0 p
      let r := o.sectionLoop radius j s0 (o.toInt p) rest
      some (o.addToStart startCap s0 ++ o.addSection s0 ++ r.1 ++ o.addToEnd endCap r.2)

/-- `closed_segments`, mesh/stroke/builder.rs:179-208. -/
def FloatOps.closedSegments (radius : T) (j : Join T) (path : List P) : List (Seg CountOff) :=
  match path with
  | [] => []
  | [_] => []
  | p0 :: p1 :: rest =>
    let last := (p1 :: rest).getLast (by simp)
    match o.skipEqual (o.toInt last) (p0 :: p1 :: rest) with
    | [] => []
    | p :: rest =>
      let start := o.section radius last p
      let r := o.sectionLoop radius j start (o.toInt p) rest
      o.addSection start ++ r.1 ++ o.addJoin j r.2 start

/-- The parameters of a stroke, mesh/stroke/builder.rs:30-35. -/
structure StrokeParams (T P : Type) where
  radius : T
  join : Join T
  startCap : CapPoints P
  endCap : CapPoints P

/-- `Builder::build` (mesh/stroke/builder.rs:97-110) for every path of the source (mesh/stroke/offset.rs:100-102). -/
def FloatOps.strokeSegments (s : StrokeParams T P) (closed : Bool) (paths : List (List P)) :
    Option (List (Seg CountOff)) :=
  (paths.mapM fun path =>
    if closed then some (o.closedSegments s.radius s.join path)
    else o.openSegments s.radius s.join s.startCap s.endCap path).map List.flatten

/-- `stroke_custom`, mesh/stroke/offset.rs:64-116, from the paths to the integer shapes. `small` is `ir <= 1`
(line 92). The subtractions of `capacity` (mesh/stroke/builder.rs:112-121) panic (or ask for an impossible
allocation) when there are no points: `none`. The conversion of the result back to floating point and the optional
cleaning (lines 107-113) are not modelled. -/
def FloatOps.stroke (k : OffConfig) (x : Externals) (s : StrokeParams T P) (small closed clockwise : Bool)
    (paths : List (List P)) : Option (List (List (List Pt))) :=
  if paths.isEmpty || small then some []
  else if paths.flatten.isEmpty then none
  else (o.strokeSegments s closed paths).bind fun segs => offsetShapes k x clockwise 0 segs

/-! ### outlines -/

/-- `Section`, mesh/outline/section.rs:10-17. -/
structure OSection (P : Type) where
  b : P
  aTop : P
  bTop : P
  dir : P

/-- `Section::new`, mesh/outline/section.rs:19-35. -/
def FloatOps.oSection (radius : T) (a b : P) : OSection P :=
  let dir := o.normal b a
  let t := o.orthoScale dir radius
  ⟨b, o.vAdd a t, o.vAdd b t, dir⟩

/-- `add_section`, mesh/outline/section.rs:41-46. -/
def FloatOps.oAddSection (s : OSection P) : List (Seg CountOff) := [boldAB (o.toInt s.aTop) (o.toInt s.bTop)]

/-- `join_weak` and `add_weak_segment`, mesh/outline/builder_join.rs:28-50. -/
def FloatOps.joinWeak (s0 s1 : OSection P) : List (Seg CountOff) :=
  let ia := o.toInt s0.bTop
  let ib := o.toInt s1.aTop
  if ia ≠ ib then [weakAB ia ib] else []

/-- `MiterJoinBuilder::add_join`, mesh/outline/builder_join.rs:111-173. -/
def FloatOps.oMiterJoin (limitDot maxLength : T) (expand : Bool) (s0 s1 : OSection P) : List (Seg CountOff) :=
  let turn := o.le o.zero (o.cross s0.dir s1.dir)
  if turn = expand then o.joinWeak s0 s1
  else
    let pa := s0.bTop
    let pb := s1.aTop
    let ia := o.toInt pa
    let ib := o.toInt pb
    if sqrDist ia ib < 4 then o.joinWeak s0 s1
    else if o.lt (o.dot s0.dir s1.dir) limitDot then
      let va := s0.dir
      let vb := s1.dir
      let iac := o.toInt
        (o.fromXY (o.add (o.x pa) (o.mul maxLength (o.x va))) (o.add (o.y pa) (o.mul maxLength (o.y va))))
      let ibc := o.toInt
        (o.fromXY (o.sub (o.x pb) (o.mul maxLength (o.x vb))) (o.sub (o.y pb) (o.mul maxLength (o.y vb))))
      (if ia ≠ iac then [boldAB ia iac] else []) ++ (if iac ≠ ibc then [boldAB iac ibc] else []) ++
        (if ibc ≠ ib then [boldAB ibc ib] else [])
    else match o.sharp pa pb s0.dir s1.dir with
      | .ab a b => [boldAB a b]
      | .acb a c b => [boldAB a c, boldAB c b]
      | .degenerate => []

/-- `RoundJoinBuilder::add_join`, mesh/outline/builder_join.rs:218-268. -/
def FloatOps.oRoundJoin (limitDot radius : T) (expand : Bool) (s0 s1 : OSection P) : List (Seg CountOff) :=
  let turn := o.le o.zero (o.cross s0.dir s1.dir)
  if turn = expand then o.joinWeak s0 s1
  else
    let dp := o.dot s0.dir s1.dir
    if o.lt limitDot dp then o.joinWeak s0 s1
    else
      let rot := o.arcRotator expand dp
      let r := arcLoop boldAB (o.toInt s0.bTop)
        (o.arcPoints rot.1 rot.2 radius s0.b (o.arcCount dp - 1) (o.fromXY (o.neg (o.y s0.dir)) (o.x s0.dir)))
      let b := o.toInt s1.aTop
      r.1 ++ (if r.2 ≠ b then [boldAB r.2 b] else [])

/-- `JoinBuilder::add_join` of the three builders (mesh/outline/builder_join.rs:53-63 for the bevel). -/
def FloatOps.oAddJoin (j : Join T) (s0 s1 : OSection P) : List (Seg CountOff) :=
  match j with
  | .bevel => o.joinWeak s0 s1
  | .miter limitDot maxLength expand => o.oMiterJoin limitDot maxLength expand s0 s1
  | .round limitDot radius expand => o.oRoundJoin limitDot radius expand s0 s1

/-- The loop of `build`, mesh/outline/builder.rs:101-111. -/
def FloatOps.oLoop (radius : T) (j : Join T) (s0 : OSection P) (ip0 : Pt) : List P → List (Seg CountOff) × OSection P
  | [] => ([], s0)
  | p :: rest =>
    if o.toInt p = ip0 then oLoop radius j s0 ip0 rest
    else
      let s1 := o.oSection radius s0.b p
      let r := oLoop radius j s1 (o.toInt p) rest
      (o.oAddJoin j s0 s1 ++ o.oAddSection s1 ++ r.1, r.2)

/-- `OutlineBuild::build`, mesh/outline/builder.rs:84-114. -/
def FloatOps.outlineSegments (radius : T) (j : Join T) (path : List P) : List (Seg CountOff) :=
  match path with
  | [] => []
  | [_] => []
  | p0 :: p1 :: rest =>
    let last := (p1 :: rest).getLast (by simp)
    match o.skipEqual (o.toInt last) (p0 :: p1 :: rest) with
    | [] => []
    | p :: rest =>
      let start := o.oSection radius last p
      let r := o.oLoop radius j start (o.toInt p) rest
      o.oAddSection start ++ r.1 ++ o.oAddJoin j r.2 start

end

end IOverlay
