import Verif.Model.Graph

/-!
# Specification of graph contents by update history
-/

namespace Capi

/-- One change of one ordered pair. -/
inductive Event where
  | added (a b : Coord) (crossing : Bool)
  | removed (a b : Coord)
  deriving DecidableEq

/-- The changes an operation stands for: an undirected one changes both ordered pairs. -/
def eventsOf : Graph.Op → List Event
  | .add a b m => [.added a b m, .added b a m]
  | .addDir a b m => [.added a b m]
  | .remove a b => [.removed a b, .removed b a]
  | .removeDir a b => [.removed a b]

/-- All changes of a history, in order. -/
def history (ops : List Graph.Op) : List Event := ops.flatMap eventsOf

/-- `a → b` was added with the given crossing flag and not removed since. -/
def Live (h : List Event) (a b : Coord) (crossing : Bool) : Prop :=
  ∃ pre post, h = pre ++ .added a b crossing :: post ∧ Event.removed a b ∉ post

/-- The coordinates an operation names. -/
def opCoords : Graph.Op → List Coord
  | .add a b _ | .addDir a b _ | .remove a b | .removeDir a b => [a, b]

/-- All coordinates named are vertices of `vs`. -/
def OpsOn (vs : List Coord) (ops : List Graph.Op) : Prop := ∀ o ∈ ops, ∀ c ∈ opCoords o, c ∈ vs

/-- Undirected operations only. -/
def Graph.Op.undirected : Graph.Op → Prop
  | .add _ _ _ | .remove _ _ => True
  | _ => False

/-- Additions only. -/
def Graph.Op.isAdd : Graph.Op → Prop
  | .add _ _ _ | .addDir _ _ _ => True
  | _ => False

/-- A graph obtained from polygons by undirected updates. -/
def UserGraph (g : Graph) : Prop :=
  ∃ ps ops, (∀ o ∈ ops, o.undirected) ∧ OpsOn ps.flatten ops ∧ (Graph.ofPolygons ps).run ops = .ok g

/-- Two graphs have the same vertices and give the same answers. -/
def SameAnswers (g h : Graph) : Prop :=
  (∀ c, c ∈ g.verts ↔ c ∈ h.verts) ∧
  ∀ a b, g.hasEdge a b = h.hasEdge a b ∧ g.isCrossing a b = h.isCrossing a b

end Capi
