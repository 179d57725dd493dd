import Mathlib.Data.List.Basic
import Mathlib.Order.Basic

/-!
Model of `Clustering` (include/alps/fastupdate/detail/clustering.hpp:9-115, and the identical
src/model/clustering.cpp): Hoshen–Kopelman labels with path compression.
The vector `cluster_alias_` is a function `ℕ → ℕ` (the code never reads an index `≥ N` if the
vertices are below `N`).
-/

namespace CTHyb

/-- Writing one element of a vector. -/
def upd (f : ℕ → ℕ) (i v : ℕ) : ℕ → ℕ := fun x => if x = i then v else f x

/-- The `while` loop of `get_true_label` (clustering.hpp:97-102): visited labels and final label;
`none` if the loop has not ended within `fuel` steps. -/
def chase (al : ℕ → ℕ) : ℕ → ℕ → Option (List ℕ × ℕ)
  | 0, _ => none
  | fuel + 1, c =>
    if al c = c then some ([], c)
    else (chase al fuel (al c)).map (fun p => (c :: p.1, p.2))

/-- The path compression loop (clustering.hpp:103-105). -/
def compress (al : ℕ → ℕ) (visited : List ℕ) (r : ℕ) : ℕ → ℕ :=
  visited.foldl (fun f v => upd f v r) al

/-- `get_true_label` (clustering.hpp:90-107).  Result: label and changed aliases. -/
def getTrueLabel (al : ℕ → ℕ) (c : ℕ) : Option (ℕ × (ℕ → ℕ)) :=
  if al c = c then some (c, al)
  else (chase al (c + 1) c).map (fun p => (p.2, compress al p.1 p.2))

/-- `connect_vertices` (clustering.hpp:24-36). -/
def connectVertices (al : ℕ → ℕ) (v1 v2 : ℕ) : Option (ℕ → ℕ) :=
  (getTrueLabel al (al v1)).bind fun p1 =>
  (getTrueLabel p1.2 (p1.2 v2)).map fun p2 =>
    if p1.1 = p2.1 then p2.2
    else if p1.1 < p2.1 then upd p2.2 p2.1 p1.1
    else upd p2.2 p1.1 p2.1

/-- A sequence of `connect_vertices` calls. -/
def connectAll (al : ℕ → ℕ) : List (ℕ × ℕ) → Option (ℕ → ℕ)
  | [] => some al
  | e :: es => (connectVertices al e.1 e.2).bind fun a => connectAll a es

/-- Loop body of `finalize_labeling` (clustering.hpp:43-49).  `flag[x]` holds exactly for the
members of `valid_labels`, so it is not kept separately. -/
def finalizeStep (st : (ℕ → ℕ) × List ℕ) (i : ℕ) : Option ((ℕ → ℕ) × List ℕ) :=
  (getTrueLabel st.1 i).map fun p =>
    let al := upd p.2 i p.1
    (al, if al i ∈ st.2 then st.2 else st.2 ++ [al i])

/-- The first loop of `finalize_labeling` (clustering.hpp:43-49). -/
def finalizeLoop (st : (ℕ → ℕ) × List ℕ) : List ℕ → Option ((ℕ → ℕ) × List ℕ)
  | [] => some st
  | i :: is => (finalizeStep st i).bind fun st' => finalizeLoop st' is

/-- The result of `finalize_labeling` (clustering.hpp:50-63).  `label_map[valid_labels[l]] = l`
is the position of a label in the duplicate-free list `valid_labels`. -/
structure Labels where
  numClusters : ℕ
  label : ℕ → ℕ
  members : ℕ → List ℕ

/-- `finalize_labeling` (clustering.hpp:39-66). -/
def finalizeLabeling (N : ℕ) (al : ℕ → ℕ) : Option Labels :=
  (finalizeLoop (al, []) (List.range N)).map fun st =>
    let label := fun i => st.2.idxOf (st.1 i)
    { numClusters := st.2.length
      label := label
      members := fun l => (List.range N).filter (fun i => label i = l) }

/-- Constructor, a list of connections, `finalize_labeling` (clustering.hpp:11-66). -/
def clusterLabels (N : ℕ) (edges : List (ℕ × ℕ)) : Option Labels :=
  (connectAll id edges).bind (finalizeLabeling N)

end CTHyb
