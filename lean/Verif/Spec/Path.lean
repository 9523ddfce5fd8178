import Verif.Go.Bytes
/-
Specification of lexical path handling in terms of path elements.  Refers to nothing in Go/Path.
-/

namespace Ninep.Spec

/-- the elements of a path: what lies between slashes, empty pieces left out -/
def elems (p : Bytes) : List Bytes :=
  match p with
  | [] => []
  | x :: rest =>
    if x = 47 then elems rest
    else (x :: rest.takeWhile (· ≠ 47)) :: elems (rest.dropWhile (· ≠ 47))
termination_by p.length
decreasing_by
  · simp
  · have := (List.dropWhile_suffix (l := rest) (· ≠ 47)).length_le
    simp only [List.length_cons]; omega

/-- a name that stands for an entry of a directory: not empty, no slash, neither "." nor ".." -/
def Proper (n : Bytes) : Prop := n ≠ [] ∧ 47 ∉ n ∧ n ≠ [46] ∧ n ≠ [46, 46]

/-- following one element from a place below "/": "." stays, ".." goes up (and stays at the top) -/
def follow (at_ : List Bytes) (e : Bytes) : List Bytes :=
  if e = [46] then at_ else if e = [46, 46] then at_.dropLast else at_ ++ [e]

/-- the place a list of elements leads to -/
def place (from_ : List Bytes) (es : List Bytes) : List Bytes := es.foldl follow from_

/-- the absolute path of a place -/
def absPath (es : List Bytes) : Bytes :=
  match es with
  | [] => [47]
  | _ => es.flatMap (47 :: ·)

/-- A place seen from the working directory: so many steps up, and then down again. -/
structure RelPlace where
  ups : Nat := 0
  names : List Bytes := []
deriving DecidableEq

/-- following one element: "." stays, ".." goes up -/
def RelPlace.follow (p : RelPlace) (e : Bytes) : RelPlace :=
  if e = [46] then p
  else if e = [46, 46] then (if p.names = [] then { ups := p.ups + 1 } else { p with names := p.names.dropLast })
  else { p with names := p.names ++ [e] }

/-- the place a list of elements leads to -/
def RelPlace.place (p : RelPlace) (es : List Bytes) : RelPlace := es.foldl RelPlace.follow p

/-- the elements of the path of a place -/
def RelPlace.elems (p : RelPlace) : List Bytes := List.replicate p.ups [46, 46] ++ p.names

/-- the elements with slashes between them -/
def slashed (es : List Bytes) : Bytes :=
  match es with
  | [] => []
  | e :: es => e ++ es.flatMap (47 :: ·)

/-- the relative path of a place -/
def RelPlace.path (p : RelPlace) : Bytes := if p.elems = [] then [46] else slashed p.elems

/-- where a root path leads: to a place below "/", or to one seen from the working directory -/
inductive Root where
  | abs (es : List Bytes)
  | rel (p : RelPlace)

/-- A root path without a leading slash is relative, except that no path at all stands for "/". -/
def rootOf (root : Bytes) : Root :=
  if root = [] ∨ root.head? = some 47 then .abs (place [] (elems root)) else .rel (RelPlace.place {} (elems root))

/-- the path of a place below a root -/
def Root.under : Root → List Bytes → Bytes
  | .abs es, names => absPath (es ++ names)
  | .rel p, names => { p with names := p.names ++ names : RelPlace }.path

/-- `p` is the place `root` or lies below it and has neither dots nor empty elements -/
def Below (root : Root) (p : Bytes) : Prop :=
  ∃ names, (∀ n ∈ names, Proper n) ∧ p = root.under names

end Ninep.Spec
