import Verif.Go.Bytes
/-
`path.Clean`, `path.Join`, `path.Dir` and `filepath.IsAbs` of the Go standard library, as used by
filesystem/filesystem.go on Unix.  Trusted: this is a reading of the standard library (package path,
path.go), not of code in /repo.  The `lazybuf` of `Clean` is modelled by the bytes written to it; the
index `r` by the rest of the path.
-/

namespace Ninep

/-- '/' -/
def slash : Byte := 47
/-- '.' -/
def dot : Byte := 46

/-- `out.w--; for out.w > dotdot && out.index(out.w) != '/' { out.w-- }`, where `w` is `out.w` -/
def backtrack (dotdot : Nat) (out : Bytes) : Nat → Nat
  | 0 => 0
  | w + 1 => if w > dotdot ∧ out.getD w 0 ≠ slash then backtrack dotdot out w else w

/-- the main loop of `path.Clean` -/
def cleanLoop (rooted : Bool) : Nat → Bytes → Bytes → Nat → Bytes
  | 0, _, out, _ => out
  | _ + 1, [], out, _ => out
  | fuel + 1, x :: rest, out, dotdot =>
    if x = slash then cleanLoop rooted fuel rest out dotdot
    else if x = dot ∧ (rest = [] ∨ rest.head? = some slash) then cleanLoop rooted fuel rest out dotdot
    else if x = dot ∧ rest.head? = some dot ∧ (rest.tail = [] ∨ rest.tail.head? = some slash) then
      if out.length > dotdot then
        cleanLoop rooted fuel rest.tail (out.take (backtrack dotdot out out.length)) dotdot
      else if rooted = false then
        let out' := (if out.length > 0 then out ++ [slash] else out) ++ [dot, dot]
        cleanLoop rooted fuel rest.tail out' out'.length
      else cleanLoop rooted fuel rest.tail out dotdot
    else
      let out' := if (rooted = true ∧ out.length ≠ 1) ∨ (rooted = false ∧ out.length ≠ 0) then out ++ [slash] else out
      cleanLoop rooted fuel ((x :: rest).dropWhile (· ≠ slash)) (out' ++ (x :: rest).takeWhile (· ≠ slash)) dotdot

/-- `path.Clean`.  Each turn of the loop consumes at least one byte, so the length of the path is enough
fuel (`cleanLoop_fuel`). -/
def pathClean (p : Bytes) : Bytes :=
  if p = [] then [dot]
  else
    let out :=
      if p.head? = some slash then cleanLoop true p.length p.tail [slash] 1
      else cleanLoop false p.length p [] 0
    if out = [] then [dot] else out

/-- `path.Join` of two elements -/
def pathJoin (a b : Bytes) : Bytes :=
  if a ≠ [] then pathClean (a ++ slash :: b)
  else if b ≠ [] then pathClean b
  else []

/-- everything up to and including the last slash: the first result of `path.Split` -/
def pathSplitDir (p : Bytes) : Bytes := (p.reverse.dropWhile (· ≠ slash)).reverse

/-- `path.Dir` -/
def pathDir (p : Bytes) : Bytes := pathClean (pathSplitDir p)

/-- `filepath.IsAbs` on Unix -/
def isAbs (p : Bytes) : Bool := p.head? = some slash

end Ninep
