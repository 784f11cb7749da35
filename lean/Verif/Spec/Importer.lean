import Verif.Model.Importer
import Verif.Spec.Demands
import Verif.Spec.Graph

/-! What an imported scenario should be: the format of a table of trips, and the network it stands for. -/

namespace Verif.Spec
open Verif

/-- An item of a block of trips: blank, or a destination and a demand. -/
inductive TripItem where
  | blank (s : List Char)
  | trip (destination demand : List Char)

/-- How it is written. -/
def TripItem.text : TripItem → List Char
  | .blank s => s
  | .trip d x => d ++ ':' :: x

/-- A block: the text of the origin and the items, each after a semicolon or a line break. -/
structure TripBlock where
  origin : List Char
  items : List (Char × TripItem)

/-- How it is written. -/
def TripBlock.text (b : TripBlock) : List Char := "Origin".toList ++ b.origin ++ b.items.flatMap (fun i => i.1 :: i.2.text)

/-- A file of trips. -/
def tripFile (header : List Char) (blocks : List TripBlock) : List Char := header ++ blocks.flatMap TripBlock.text

/-- Texts without separators: no `;`, line break, `:` or capital O (as in `Origin`). -/
def Plain (s : List Char) : Prop := ';' ∉ s ∧ '\n' ∉ s ∧ ':' ∉ s ∧ 'O' ∉ s

/-- The item is well written and stands for these trips. -/
def ItemReads (readInt : List Char → Option Nat) (readFloat : List Char → Option ℚ) (origin : Nat) : TripItem → List (Nat × Nat × ℚ) → Prop
  | .blank s, l => Plain s ∧ (∀ c ∈ s, c.isWhitespace = true) ∧ l = []
  | .trip d x, l => Plain d ∧ Plain x ∧ ∃ (v : Nat) (y : ℚ), readInt d = some v ∧ readFloat x = some y ∧ l = [(origin, v, y)]

/-- The block is well written and stands for the trips `ls`, item by item. -/
def BlockReads (readInt : List Char → Option Nat) (readFloat : List Char → Option ℚ) (b : TripBlock) (ls : List (List (Nat × Nat × ℚ))) : Prop :=
  Plain b.origin ∧ (∀ i ∈ b.items, i.1 = ';' ∨ i.1 = '\n') ∧ ∃ origin, readInt b.origin = some origin ∧ List.Forall₂ (fun i l => ItemReads readInt readFloat origin i.2 l) b.items ls

/-- The commodity `c` carries the trip: constant demand from the origin to the destination up to the inflow horizon. -/
def CarriesTrip {P : Type} (constant : P) (horizon : WithTop ℚ) (trip : Nat × Nat × ℚ) (c : Commodity P) : Prop :=
  c.sink = trip.2.1 ∧ c.predictor = constant ∧ ∃ f, c.sources = [(trip.1, f)] ∧ ConstantUntil horizon trip.2.2 f

/-- `v` is an end of a road. -/
def OnRoads (l : List Road) (v : Nat) : Prop := ∃ r ∈ l, v = r.tail ∨ v = r.head

/-- One can drive from `u` to `v` (or is there already). -/
def Drive (l : List Road) : Nat → Nat → Prop := Relation.ReflTransGen (fun a b => ∃ r ∈ l, r.tail = a ∧ r.head = b)

/-- The network has exactly these roads, in this order, and no places but their ends. -/
structure IsMap {P : Type} (n : Network P) (l : List Road) : Prop where
  holds : Holds n l false
  nodes : ∀ v, v ∈ n.graph.nodes ↔ OnRoads l v

/-- The road of a row of a `_net.tntp` table. -/
def netRoad (r : Importer.NetRow) : Road := ⟨r.init, r.term, r.time, r.capacity⟩

/-- The road of a row of an arcs file; the speed is 20 if none is given. -/
def arcRoad (r : Importer.ArcRow) : Road := ⟨r.tail, r.head, r.length / (if r.speed ≤ 0 then 20 else r.speed), r.lanes * (if r.speed ≤ 0 then 20 else r.speed)⟩

open Classical in
/-- The trips that can be driven among those drawn in the rounds from `k` on, at most `m` of them. -/
noncomputable def drivable (l : List Road) (draw : Nat → Nat × Nat × ℚ) (k rounds m : Nat) : List (Nat × Nat × ℚ) :=
  (((List.range rounds).map (fun i => draw (k + i))).filter (fun t => Drive l t.1 t.2.1)).take m

end Verif.Spec
