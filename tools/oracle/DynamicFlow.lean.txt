import Verif.Model.DynamicFlow
import Verif.Spec.DynamicFlow
open Verif Verif.Spec

def net : EdgeData := ⟨fun e => if e = 1 then 2 else 1, fun e => if e = 0 then 1 else if e = 1 then 1/2 else 0⟩
def runs : List (List FlowCall) := [
 [.extend [(0, [(0, 3), (1, 1)])] 1, .look 0, .extend [(0, [(0, 1/2)])] 10, .look 0, .extend [(1, [(0, 3/4), (1, 1/4)])] 10, .extend [] 10, .extend [] 10, .look 0, .extend [(0, [])] 12],
 [.extend [(0, [(0, 2), (1, 2)]), (1, [(0, 5)])] 2, .extend [(0, [(1, 1/2), (0, 1/4)])] 3, .extend [(1, [])] (7/2), .extend [(0, [])] 4, .extend [] 20, .extend [(0, [(2, 3)])] 21, .extend [(0, [(2, 1/2)])] 30, .extend [] 30, .extend [] 30, .extend [] 30],
 [.extend [(0, [(0, 3)])] 1, .extend [(0, [(0, 1/2)])] (5/4), .extend [(0, [(0, 2)])] (3/2), .extend [(0, [(1, 1/4)])] 40, .extend [] 40, .extend [] 40, .extend [] 40, .extend [] 40, .extend [] 40],
 [.extend [(0, [(0, 3)])] 1, .extend [(0, [(0, 1/2)])] (5/4), .extend [(0, [(0, 2)])] 20, .extend [] 20, .extend [] 20, .extend [] 20],
 [.extend [(2, [(0, 3)])] 1, .extend [] 1, .extend [(2, [(0, 1/2)])] 20, .extend [] 20, .extend [] 20, .extend [(2, [])] 20, .extend [] 20],
 [.extend [(0, [(0, 1/2)])] 1, .extend [(0, [(0, 1/4), (1, 1/4)])] 2, .extend [(0, [])] 3, .extend [] 10, .extend [] 10, .extend [] 10]]

def okv {α} (x : Py α) : Option α := match x with | .ok a => some a | .error _ => none
def outAt (s : DFlow) (e : Nat) (t : ℚ) : Option ℚ := okv ((s.outflow e).acc.eval t)
def grid (phi : ℚ) : List ℚ := ((List.range 41).map (fun (i : Nat) => phi * (i : ℚ) / 40)) ++ [1/3, 1, 2, 3, 5/4, 7/2, 4, 7].filter (· ≤ phi)
def stateBad (g0 : List (ℚ × Rates)) (s : DFlow) (e : Nat) : List String := Id.run do
  let cap := net.capacity e; let tt := net.travelTime e
  let mut bad : List String := []
  for t in grid s.phi do
    let q := (okv ((s.queues e).eval t)).getD (-1)
    let a := (okv ((s.inflow e).acc.eval t)).getD (-1)
    if q < 0 then bad := "C29" :: bad
    if outAt s e (t + tt) ≠ some (a - q) then bad := "C30 balance" :: bad
    if outAt s e (t + tt + q / cap) ≠ some a then bad := "C32" :: bad
    if a ≠ givenTotal g0 t then bad := "C67 total" :: bad
    let mut mx : ℚ := -1
    for r in grid s.phi do
      if r ≤ t then
        match okv ((s.inflow e).acc.eval r) with
        | some b => if a - b - cap * (t - r) > q then bad := "C30 excess" :: bad
                    mx := max mx (a - b - cap * (t - r))
        | none => pure ()
      match outAt s e t, outAt s e r with
      | some x, some y => if r ≤ t && (x - y > cap * (t - r) || x < y) then bad := "C31" :: bad
      | _, _ => bad := "C31 eval" :: bad
    for i in [0,1,2] do
      match okv ((s.inflow e).rateAt i t), okv ((s.outflow e).rateAt i (t + tt + q / cap)) with
      | some x, some y =>
        if x ≠ givenRate g0 i t then bad := "C67 rate" :: bad
        if x > 0 && ¬ (y > 0) then bad := "C33 pos" :: bad
        let u := t + 1/1000
        if u ≤ s.phi && t ≥ 1/100 then
          match okv ((s.queues e).eval u) with
          | some q' => if okv ((s.inflow e).rateAt i u) = some x then
              if x * (u - t) ≠ y * ((u + q' / cap) - (t + q / cap)) && okv ((s.outflow e).rateAt i (u + tt + q' / cap)) = some y then bad := "C33 rate" :: bad
          | none => pure ()
        for j in [0,1,2] do
          match okv ((s.inflow e).rateAt j t), okv ((s.outflow e).rateAt j (t + tt + q / cap)) with
          | some x', some y' => if y * x' ≠ y' * x then bad := "C33" :: bad
          | _, _ => pure ()
      | _, _ => bad := "C33 eval" :: bad
    match okv (s.edgeLoad e) with
    | some l =>
      let x := (okv (l.eval t)).getD (-1)
      if x < 0 || some x ≠ (outAt s e t).map (a - ·) then bad := "C36" :: bad
      if okv (l.eval (-1)) ≠ some 0 then bad := "C36 before" :: bad
    | none => bad := "C36 error" :: bad
  return bad
def stepBad (s : DFlow) (l : List (Nat × Rates)) (T : ℚ) : List String := Id.run do
  match s.extend net l T with
  | .error _ => return ["C35"]
  | .ok (s', ch) =>
    let mut bad : List String := []
    if s'.phi < s.phi || s'.phi > T then bad := "C28 range" :: bad
    if s'.phi ≠ T && ¬ (ch.any (fun e => (s'.outflow e).queue.any (fun it => decide (it.time = s'.phi)))) then bad := "C28 event" :: bad
    for e in [0, 1, 2] do
      if (s'.outflow e).queue.any (fun it => decide (s.phi < it.time) && decide (it.time < s'.phi)) then bad := "C28 skip" :: bad
      if e ∈ ch && ¬ ((s'.outflow e).queue.any (fun it => decide (it.time = s'.phi))) then bad := "C34 reported" :: bad
      let v0 := (okv ((s.outflow e).getValuesAtTime s.phi)).map (fun p => p.1)
      for i in List.range 9 do
        let t := s.phi + (s'.phi - s.phi) * (i : ℚ) / 8
        if t < s'.phi || (t = s'.phi && ¬ (e ∈ ch)) then
          if (okv ((s'.outflow e).getValuesAtTime t)).map (fun p => p.1) ≠ v0 then bad := "C34 unreported" :: bad
    return bad
def runBad (s0 : DFlow) (calls : List FlowCall) : List String := Id.run do
  let mut s := s0
  let mut bad : List String := []
  let mut done : List FlowCall := []
  for c in calls do
    match c with
    | .extend l T => bad := stepBad s l T ++ bad
    | _ => pure ()
    match stepFlow net s c with
    | .ok s' => s := s'
    | .error _ => return "C35" :: bad
    done := done ++ [c]
    for e in [0, 1, 2] do bad := stateBad (given net e s0 done) s e ++ bad
  return bad
#eval match DFlow.init with
  | .ok s0 => IO.println s!"ORACLE {(runs.map (runBad s0)).flatten.eraseDups}"
  | .error _ => IO.println "ORACLE [init]"
